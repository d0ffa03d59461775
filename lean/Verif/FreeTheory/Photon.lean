import Verif.FreeTheory.Quark
import Verif.Operations.PropsFft
import Mathlib.LinearAlgebra.Matrix.PosDef

/-! # Tree-level Symanzik gauge (photon) propagator

Models `/repo/src/free_theory/tlSym_gauge_propagator.cpp`, the photon part of `/repo/src/free_theory/free_theory_types.hpp` and the passes of
`spin1field` of `/repo/src/operations/fourier_transform.cpp`.  Arithmetic is exact (the thresholds `1e-14` are kept).  A division by zero, which
gives inf or nan in the code, gives 0 in the model: the results of such divisions are overwritten by the code in the branches of the
thresholds.  The routines ending in `CRASH("reimplement")` (passes of `spin1prop`, propagator in position space) are not modelled. -/

set_option linter.all false

namespace Nissa.Phot
open Nissa.Lx Nissa.Free Nissa.Fft Matrix Complex

noncomputable section

/-- `zero_mode_sub_t`.  `/repo/src/free_theory/free_theory_types.hpp:13` -/
inductive Zms | peciona | unnoAlemanna | only100
deriving DecidableEq

/-- `which_gauge_t`.  `/repo/src/free_theory/free_theory_types.hpp:66` -/
inductive Gau | feynman | landau | coulomb
deriving DecidableEq

/-- `gauge_info`.  `/repo/src/free_theory/free_theory_types.hpp:64-84` -/
structure GaugeInfo where
  zms : Zms
  c1 : ℝ
  gauge : Gau
  bc : Dir → ℝ

/-- `isNonZeroMode`, given the coordinates of the momentum.  `/repo/src/free_theory/tlSym_gauge_propagator.cpp:25-41` -/
def isNonZeroMode (gl : GaugeInfo) (c : Coords) : Bool :=
  match gl.zms with
  | .unnoAlemanna => !(c 1 == 0 && c 2 == 0 && c 3 == 0)
  | .peciona => !(c 0 == 0 && c 1 == 0 && c 2 == 0 && c 3 == 0)
  | .only100 => c 1 + c 2 + c 3 == 1

/-- a `bool` used as a number -/
def num (b : Bool) : ℝ := if b then 1 else 0

/-- what the momentum loop computes: `kt`, `kt2_dir`, `kt2`, `kt4`, `kt6` -/
structure Mom where
  kt : Dir → ℝ
  kt2 : ℝ
  kt4 : ℝ
  kt6 : ℝ

/-- one step of the loop on the directions.  `/repo/src/free_theory/tlSym_gauge_propagator.cpp:95-105` -/
def momStep (L : Coords) (bc : Dir → ℝ) (c : Coords) (m : Mom) (mu : Dir) : Mom :=
  let k := Real.pi * (2 * c mu + bc mu) / L mu
  let kt := 2 * Real.sin (k / 2)
  let kt2 := kt * kt
  let kt4 := kt2 * kt2
  let kt6 := kt4 * kt2
  ⟨Function.update m.kt mu kt, m.kt2 + kt2, m.kt4 + kt4, m.kt6 + kt6⟩

/-- the loop.  `/repo/src/free_theory/tlSym_gauge_propagator.cpp:90-105` -/
def momLoop (L : Coords) (bc : Dir → ℝ) (c : Coords) : Mom := dirs.foldl (momStep L bc c) ⟨fun _ => 0, 0, 0, 0⟩

/-- `ktpo2` and `ktso2`.  `/repo/src/free_theory/tlSym_gauge_propagator.cpp:109-121` -/
def ktpo2 (kt : Dir → ℝ) (mu nu : Dir) : ℝ := dirs.foldl (fun a rho => if mu ≠ rho ∧ nu ≠ rho then a * (kt rho * kt rho) else a) 1
def ktso2 (kt : Dir → ℝ) (mu nu : Dir) : ℝ := dirs.foldl (fun a rho => if mu ≠ rho ∧ nu ≠ rho then a + kt rho * kt rho else a) 0

/-- `kron_delta`.  `/repo/src/free_theory/tlSym_gauge_propagator.cpp:87` -/
def kron (mu nu : Dir) : ℝ := if mu = nu then 1 else 0

/-- `Deltakt`.  `/repo/src/free_theory/tlSym_gauge_propagator.cpp:158-161` -/
def Deltakt (c1 : ℝ) (m : Mom) : ℝ :=
  let c12 := c1 * c1
  let c13 := c12 * c1
  let kt22 := m.kt2 * m.kt2
  let kt23 := m.kt2 * m.kt2 * m.kt2
  dirs.foldl (fun D rho => D - 4 * c13 * (m.kt rho * m.kt rho * (m.kt rho * m.kt rho)) * ktpo2 m.kt rho rho)
    ((m.kt2 - c1 * m.kt4) * (m.kt2 - c1 * (kt22 + m.kt4) + 0.5 * c12 * (kt23 + 2 * m.kt6 - m.kt2 * m.kt4)))

/-- `A`.  `/repo/src/free_theory/tlSym_gauge_propagator.cpp:164-168` -/
def Amat (c1 : ℝ) (m : Mom) (mu nu : Dir) : ℝ :=
  let c12 := c1 * c1
  let kt22 := m.kt2 * m.kt2
  let kt42 := m.kt4 * m.kt4
  (1 - kron mu nu) / Deltakt c1 m *
    (kt22 - c1 * m.kt2 * (2 * m.kt4 + m.kt2 * ktso2 m.kt mu nu) + c12 * (kt42 + m.kt2 * m.kt4 * ktso2 m.kt mu nu + kt22 * ktpo2 m.kt mu nu))

open Classical in
/-- the propagator in Coulomb gauge.  `/repo/src/free_theory/tlSym_gauge_propagator.cpp:132-145` -/
def coulombProp (V : ℝ) (m : Mom) : Matrix (Fin 4) (Fin 4) ℂ := fun mu nu =>
  let kt_spat_2 := [1, 2, 3].foldl (fun a i => a + m.kt i * m.kt i) (0 : ℝ)
  let re := if |kt_spat_2| > 1e-14 then
      (num (mu = nu) - m.kt mu * m.kt nu * (num (nu ≠ 0) + num (mu ≠ 0) - 1) / kt_spat_2) / m.kt2 / V
    else 0
  ⟨re, 0⟩

open Classical in
/-- the propagator in Feynman or Landau gauge.  `/repo/src/free_theory/tlSym_gauge_propagator.cpp:147-185` -/
def covariantProp (V : ℝ) (c1 alpha : ℝ) (m : Mom) : Matrix (Fin 4) (Fin 4) ℂ := fun mu nu =>
  let re := dirs.foldl (fun a si => a + (m.kt si * kron mu nu - m.kt nu * kron mu si) * m.kt si * Amat c1 m si nu) (alpha * m.kt mu * m.kt nu)
  let re := if |m.kt2| ≥ 1e-14 then re / (m.kt2 * m.kt2 * V) else 0
  ⟨re, 0⟩

/-- `cancel_if_zero_mode_spin1prop`.  `/repo/src/free_theory/tlSym_gauge_propagator.cpp:44-58` -/
def cancelProp (gl : GaugeInfo) (c : Coords) (p : Matrix (Fin 4) (Fin 4) ℂ) : Matrix (Fin 4) (Fin 4) ℂ := fun mu nu =>
  ⟨(p mu nu).re * num (isNonZeroMode gl c), (p mu nu).im * num (isNonZeroMode gl c)⟩

/-- `cancel_if_zero_mode_spin1field`.  `/repo/src/free_theory/tlSym_gauge_propagator.cpp:60-76` -/
def cancelField (gl : GaugeInfo) (c : Coords) (v : Site 4) : Site 4 := fun mu =>
  ⟨(v mu).re * num (isNonZeroMode gl c), (v mu).im * num (isNonZeroMode gl c)⟩

open Classical in
/-- `mom_space_tlSym_gauge_propagator_of_imom`, given the coordinates of the momentum; none is the crash.
`/repo/src/free_theory/tlSym_gauge_propagator.cpp:79-189` -/
def propagator (g : Geo) (gl : GaugeInfo) (c : Coords) : Option (Matrix (Fin 4) (Fin 4) ℂ) :=
  if !isNonZeroMode gl c then some (fun _ _ => 0) else
  let m := momLoop g.L gl.bc c
  if gl.gauge = .coulomb then
    if gl.c1 ≠ 0 then none else some (cancelProp gl c (coulombProp g.glbVol m))
  else
    let alpha : ℝ := if gl.gauge = .feynman then 1 else 0
    some (cancelProp gl c (covariantProp g.glbVol gl.c1 alpha m))

/-- product with a `spin1field`: `safe_spinspin_prod_spin`.  `/repo/src/new_types/spin.hpp:559-584` -/
def prodField (p : Matrix (Fin 4) (Fin 4) ℂ) (v : Site 4) : Site 4 := fun mu => [0, 1, 2, 3].foldl (fun a nu => a + p mu nu * v nu) 0

/-- all the sites in a loop of which no iteration crashes -/
def allSites (g : Geo) (f : Nat → Nat → Option (Site 4)) (out : Nat → Nat → Site 4) : Prop :=
  ∀ r i, r < g.nranks → i < g.locVol → f r i = some (out r i)

/-- `multiply_mom_space_tlSym_gauge_propagator`.  `/repo/src/free_theory/tlSym_gauge_propagator.cpp:206-219` -/
def MulMom (g : Geo) (X : Nat → Nat → Coords) (gl : GaugeInfo) (inp out : Nat → Nat → Site 4) : Prop :=
  allSites g (fun r i => (propagator g gl (X r i)).map fun p => prodField p (inp r i)) out

/-- what `SelfAdjointEigenSolver` returns: the matrix of eigenvectors and the eigenvalues -/
abbrev Solver := Matrix (Fin 4) (Fin 4) ℝ → Matrix (Fin 4) (Fin 4) ℝ × (Fin 4 → ℝ)

/-- `norm` of Eigen -/
def frob (A : Matrix (Fin 4) (Fin 4) ℝ) : ℝ := Real.sqrt (∑ i, ∑ j, A i j * A i j)

open Classical in
/-- the body of the loop of `multiply_mom_space_sqrt_tlSym_gauge_propagator`, with Eigen (`solver`) or without; none is a crash.
`/repo/src/free_theory/tlSym_gauge_propagator.cpp:236-299` -/
def sqrtSite (solver : Option Solver) (prop : Matrix (Fin 4) (Fin 4) ℂ) (inp : Site 4) : Option (Site 4) :=
  match solver with
  | some sol =>
    let eprop : Matrix (Fin 4) (Fin 4) ℝ := fun mu nu => (prop mu nu).re
    let eve := (sol eprop).1
    let eva := (sol eprop).2
    let tol : ℝ := 1e-14
    let min_coef := min (min (eva 0) (eva 1)) (min (eva 2) (eva 3))
    let sq := eve * Matrix.diagonal (fun mu => Real.sqrt |eva mu|) * eveᵀ
    let err := sq * sq - eprop
    if min_coef < -tol then none else
    if frob eprop ≠ 0 ∧ frob eprop > tol ∧ frob err > tol then none else
    some fun mu => ∑ nu, (sq mu nu : ℂ) * inp nu
  | none => some fun mu => ⟨(inp mu).re * Real.sqrt (prop 0 0).re, (inp mu).im * Real.sqrt (prop 0 0).re⟩

/-- `multiply_mom_space_sqrt_tlSym_gauge_propagator`; without Eigen it crashes but in the Feynman gauge for the Wilson action.
`/repo/src/free_theory/tlSym_gauge_propagator.cpp:221-311` -/
def SqrtMom (solver : Option Solver) (g : Geo) (X : Nat → Nat → Coords) (gl : GaugeInfo) (inp out : Nat → Nat → Site 4) : Prop :=
  ¬(solver = none ∧ (gl.gauge ≠ .feynman ∨ gl.c1 ≠ 0)) ∧
  allSites g (fun r i => (propagator g gl (X r i)).bind fun p => sqrtSite solver p (inp r i)) out

/-- a number as product of a complex -/
def phase (a : ℝ) : ℂ := ⟨Real.cos a, Real.sin a⟩

/-- `sign` of the two passes: towards position space, and towards momentum space.  `/repo/src/operations/fourier_transform.cpp:233,291` -/
def signX (sink : Bool) : Int := if sink then 1 else -1
def signP (sink : Bool) : Int := if sink then -1 else 1

/-- the argument of the phase of the half momentum.  `/repo/src/operations/fourier_transform.cpp:244-246,329-331` -/
def halfArg (L : Coords) (sel : Dir → Bool) (si : Int) (bc : Dir → ℝ) (incl : Bool) (c : Coords) (mu : Dir) : ℝ :=
  num (sel mu) * si * Real.pi * (2 * c mu + bc mu * num incl) / L mu * 0.5

/-- the argument of the fractional phase.  `/repo/src/operations/fourier_transform.cpp:259-272,295-310` -/
def stepArg (L : Coords) (sel : Dir → Bool) (s : ℝ) (bc : Dir → ℝ) (c : Coords) : ℝ :=
  dirs.foldl (fun a mu => a + num (sel mu) * s * bc mu * Real.pi / L mu * c mu) 0

/-- `pass_spin1field_from_mom_to_x_space`.  `/repo/src/operations/fourier_transform.cpp:224-281`; the transform is in all the directions,
whatever `sel` is -/
def MomToX (g : Geo) (X : Nat → Nat → Coords) (sel : Dir → Bool) (bc : Dir → ℝ) (sink incl : Bool) (inp out : Nat → Nat → Site 4) : Prop :=
  ∃ f, Fft4d g X (fun _ => true) (signX sink) false (fun r i mu => inp r i mu * phase (halfArg g.L sel (signX sink) bc incl (X r i) mu)) f ∧
    out = fun r i mu => f r i mu * phase (stepArg g.L sel (signX sink * num incl) bc (X r i))

/-- `pass_spin1field_from_x_to_mom_space`.  `/repo/src/operations/fourier_transform.cpp:283-341` -/
def XToMom (g : Geo) (X : Nat → Nat → Coords) (sel : Dir → Bool) (bc : Dir → ℝ) (sink incl : Bool) (inp out : Nat → Nat → Site 4) : Prop :=
  ∃ f, Fft4d g X (fun _ => true) (signP sink) true (fun r i mu => inp r i mu * phase (stepArg g.L sel (signP sink * num incl) bc (X r i))) f ∧
    out = fun r i mu => f r i mu * phase (halfArg g.L sel (signP sink) bc incl (X r i) mu)

/-- product of a `spin1field` by a number, then cancellation of the zero modes.  `/repo/src/free_theory/tlSym_gauge_propagator.cpp:380-386` -/
def scaleCancel (X : Nat → Nat → Coords) (gl : GaugeInfo) (a : ℝ) (v : Nat → Nat → Site 4) (r i : Nat) : Site 4 :=
  cancelField gl (X r i) (fun mu => ⟨(v r i mu).re * a, (v r i mu).im * a⟩)

/-- `multiply_by_tlSym_gauge_propagator`.  `/repo/src/free_theory/tlSym_gauge_propagator.cpp:393-413` -/
def MulByProp (g : Geo) (X : Nat → Nat → Coords) (gl : GaugeInfo) (inp out : Nat → Nat → Site 4) : Prop :=
  ∃ p q, XToMom g X (fun _ => true) gl.bc true true inp p ∧ MulMom g X gl p q ∧ MomToX g X (fun _ => true) gl.bc true true (scaleCancel X gl g.glbVol q) out

/-- `multiply_by_sqrt_tlSym_gauge_propagator`; `sqrtf` is the square root in single precision.
`/repo/src/free_theory/tlSym_gauge_propagator.cpp:368-391` -/
def MulBySqrt (solver : Option Solver) (sqrtf : ℝ → ℝ) (g : Geo) (X : Nat → Nat → Coords) (gl : GaugeInfo) (inp out : Nat → Nat → Site 4) : Prop :=
  ∃ p q, XToMom g X (fun _ => true) gl.bc true true inp p ∧ SqrtMom solver g X gl p q ∧
    MomToX g X (fun _ => true) gl.bc true true (scaleCancel X gl (sqrtf g.glbVol) q) out

/-- `gluon_energy`; none is the crash.  `/repo/src/free_theory/tlSym_gauge_propagator.cpp:440-461` -/
def gluon_energy (L : Coords) (gl : GaugeInfo) (virt : ℝ) (imom : Nat) : Option ℝ :=
  open Classical in
  if gl.c1 ≠ 0 then none else
  let p2 := [1, 2, 3].foldl (fun a mu => a + (2 * Real.sin (momentum L gl.bc imom mu / 2)) ^ 2) (0 : ℝ)
  some (Real.sqrt ((2 * Real.arsinh (Real.sqrt p2 / 2)) ^ 2 + virt ^ 2))

end

end Nissa.Phot
