import Verif.Dirac.PropsWilson2
import Mathlib.Analysis.SpecialFunctions.Arsinh
import Mathlib.Analysis.SpecialFunctions.Trigonometric.Basic

/-! # Free twisted-mass quarks

Models `/repo/src/free_theory/twisted_propagator.cpp`, `/repo/src/free_theory/twisted_propagator.hpp` and the quark part of
`/repo/src/free_theory/free_theory_types.hpp`.  Arithmetic is exact (`1e-14` is kept).  A division by zero, which gives inf or nan in the
code, gives 0 in the model: the theorems have the denominators as hypotheses.  Not modelled: the routines in position space (all of
them end in a `CRASH("reimplement")`). -/

set_option linter.all false

namespace Nissa.Free
open Nissa.Lx Nissa.Sten Nissa.Gamma Nissa.Wilson Nissa.StD Matrix Complex

noncomputable section

/-- `tm_basis_t`.  `/repo/src/free_theory/free_theory_types.hpp:11` -/
inductive Base | wilson | maxTwist
deriving DecidableEq

/-- `TmQuarkInfo`.  `/repo/src/free_theory/free_theory_types.hpp:17-27` -/
structure Quark where
  kappa : ℝ
  mass : ℝ
  bc : Dir → ℝ
  zmp : ℝ
  r : Fin 2

/-- `tau3`.  `/repo/src/new_types/dirac.hpp:38-42` -/
def tau3 : Fin 2 → ℝ := ![-1, 1]

/-- `m0_of_kappa`.  `/repo/src/free_theory/twisted_propagator.hpp:116-121` -/
def m0_of_kappa (kappa : ℝ) : ℝ := 0.5 / kappa - 4

/-- `kappa_of_m0`.  `/repo/src/free_theory/twisted_propagator.hpp:123-127` -/
def kappa_of_m0 (m0 : ℝ) : ℝ := 0.5 / (m0 + 4)

/-- `spinspin_put_to_diag_double`.  `/repo/src/new_types/spin.hpp:137-155` -/
def putToDiag (b : ℝ) : SpinSpin ℂ := [0, 1, 2, 3].foldl (fun m id => setEl m id id (⟨b, 0⟩ : ℂ)) putToZero

/-- `spinspin_dirac_summ_the_prod_double`.  `/repo/src/new_types/spin.hpp:429-438`, `/repo/src/new_types/complex.hpp:277-284` -/
def summProdDouble (out : SpinSpin ℂ) (a : DiracMatr ℂ) (r : ℝ) : SpinSpin ℂ :=
  [0, 1, 2, 3].foldl (fun m ig => setEl m ig (a.pos ig) (m ig (a.pos ig) + ⟨(a.entr ig).re * r, (a.entr ig).im * r⟩)) out

/-- `spinspin_dirac_summ_the_prod_idouble`.  `/repo/src/new_types/spin.hpp:440-448`, `/repo/src/new_types/complex.hpp:302-310` -/
def summProdIdouble (out : SpinSpin ℂ) (a : DiracMatr ℂ) (r : ℝ) : SpinSpin ℂ :=
  [0, 1, 2, 3].foldl (fun m ig => setEl m ig (a.pos ig) (m ig (a.pos ig) + ⟨-((a.entr ig).im * r), (a.entr ig).re * r⟩)) out

/-- one step of the loop of `get_component_of_twisted_propagator_of_imom`.  `/repo/src/free_theory/twisted_propagator.cpp:71-77` -/
def componentStep (L : Coords) (bc : Dir → ℝ) (c : Coords) (st : (Dir → ℝ) × ℝ × ℝ) (mu : Dir) : (Dir → ℝ) × ℝ × ℝ :=
  let p := Real.pi * (2 * c mu + bc mu) / L mu
  (Function.update st.1 mu (Real.sin p), st.2.1 + Real.sin p * Real.sin p, st.2.2 + Real.sin (p / 2) * Real.sin (p / 2))

/-- `get_component_of_twisted_propagator_of_imom`: `sin_mom`, `sin2_mom`, `sin2_momh`, given the coordinates `c` of the momentum.
`/repo/src/free_theory/twisted_propagator.cpp:63-78` -/
def get_component (L : Coords) (qu : Quark) (c : Coords) : (Dir → ℝ) × ℝ × ℝ :=
  dirs.foldl (componentStep L qu.bc c) (fun _ => 0, 0, 0)

/-- `mom_space_twisted_operator_of_imom`, given the coordinates of the momentum.  `/repo/src/free_theory/twisted_propagator.cpp:81-98` -/
def twisted_operator (L : Coords) (qu : Quark) (c : Coords) (base : Base) : SpinSpin ℂ :=
  let co := get_component L qu c
  let M := m0_of_kappa qu.kappa + 2 * co.2.2
  let c0 : Base → ℝ := fun b => match b with | .maxTwist => qu.mass | .wilson => M
  let c5 : Base → ℝ := fun b => match b with | .maxTwist => -M * tau3 qu.r | .wilson => qu.mass * tau3 qu.r
  let out := putToDiag (c0 base)
  let out := dirs.foldl (fun o mu => summProdIdouble o (baseGamma (iGammaOfMu mu)) (co.1 mu)) out
  summProdIdouble out (baseGamma 5) (c5 base)

/-- `tol` -/
def tol : ℝ := 1e-14

open Classical in
/-- `zm_sub`.  `/repo/src/free_theory/twisted_propagator.cpp:119-140` -/
def zm_sub (qu : Quark) (c : Coords) : Bool :=
  let zmp := decide (|qu.mass| < tol ∧ |qu.kappa - 1.0 / 8| < tol)
  let zmp := dirs.foldl (fun z mu => z && decide (|qu.bc mu| < tol)) zmp
  let zm_time := decide (c 0 = 0)
  let zm_spat := [1, 2, 3].foldl (fun z mu => z && decide (c mu = 0)) true
  let only4D := true
  if zmp then (if only4D then zm_time && zm_spat else zm_spat) else false

/-- `mom_space_twisted_propagator_of_imom`.  `/repo/src/free_theory/twisted_propagator.cpp:101-164`.  In the zero-mode branch the entries
of `base_gamma[0]` times `qu.zmp` are written on the matrix put to zero. -/
def twisted_propagator (g : Geo) (qu : Quark) (c : Coords) (base : Base) : SpinSpin ℂ :=
  let co := get_component g.L qu c
  let M := m0_of_kappa qu.kappa + 2 * co.2.2
  let den := co.2.1 + M * M + qu.mass * qu.mass
  if zm_sub qu c then
    [0, 1, 2, 3].foldl (fun m ig => setEl m ig ((baseGamma 0).pos ig)
      (⟨((baseGamma 0).entr ig).re * qu.zmp, ((baseGamma 0).entr ig).im * qu.zmp⟩ : ℂ)) putToZero
  else
    let rep_den := 1 / den / g.glbVol
    let c0 : Base → ℝ := fun b => match b with | .maxTwist => qu.mass | .wilson => M
    let c5 : Base → ℝ := fun b => match b with | .maxTwist => M * tau3 qu.r | .wilson => -qu.mass * tau3 qu.r
    let prop := summProdDouble putToZero (baseGamma 0) (c0 base * rep_den)
    let prop := dirs.foldl (fun o mu => summProdIdouble o (baseGamma (iGammaOfMu mu)) (-(co.1 mu) * rep_den)) prop
    summProdIdouble prop (baseGamma 5) (c5 base * rep_den)

/-- coordinates of the site `imom` of the rank `rk`: `glbCoordOfLoclx[imom]` (all 0 out of the table) -/
def momOf (g : Geo) (rk imom : Nat) : Coords := (glbCoordOfLoclx g (coordOfLx rk g.R) imom).getD (fun _ => 0)

/-- `compute_mom_space_twisted_propagator`.  `/repo/src/free_theory/twisted_propagator.cpp:291-306` -/
def compute_mom_space_twisted_propagator (g : Geo) (qu : Quark) (base : Base) (rk imom : Nat) : SpinSpin ℂ :=
  twisted_propagator g qu (momOf g rk imom) base

/-- `multiply_from_left_by_mom_space_twisted_propagator` for `spin`.  `/repo/src/free_theory/twisted_propagator.cpp:341-357`, with the
product `/repo/src/new_types/spin.hpp:563-584` -/
def multiply_from_left_spin (g : Geo) (qu : Quark) (base : Base) (inp : Nat → Nat → Fin 4 → ℂ) (rk imom : Nat) : Fin 4 → ℂ := fun id1 =>
  let prop := twisted_propagator g qu (momOf g rk imom) base
  [0, 1, 2, 3].foldl (fun a id2 => a + prop id1 id2 * inp rk imom id2) 0

/-- `multiply_from_right_by_mom_space_twisted_propagator` for `spin`.  `/repo/src/free_theory/twisted_propagator.cpp:359-374`,
`/repo/src/new_types/spin.hpp:586-612` -/
def multiply_from_right_spin (g : Geo) (qu : Quark) (base : Base) (inp : Nat → Nat → Fin 4 → ℂ) (rk imom : Nat) : Fin 4 → ℂ := fun id1 =>
  let prop := twisted_propagator g qu (momOf g rk imom) base
  [0, 1, 2, 3].foldl (fun a id2 => a + inp rk imom id2 * prop id2 id1) 0

/-- the same for `spincolor`, from left.  `/repo/src/new_types/su3_op.hpp:2108-2131` -/
def multiply_from_left_spincolor (g : Geo) (qu : Quark) (base : Base) (inp : Nat → Nat → SpCol) (rk imom : Nat) : SpCol := fun id ic =>
  let prop := twisted_propagator g qu (momOf g rk imom) base
  [0, 1, 2, 3].foldl (fun a jd => a + prop id jd * inp rk imom jd ic) 0

/-- the same for `spincolor`, from right.  `/repo/src/new_types/su3_op.hpp:2078-2102` -/
def multiply_from_right_spincolor (g : Geo) (qu : Quark) (base : Base) (inp : Nat → Nat → SpCol) (rk imom : Nat) : SpCol := fun id ic =>
  let prop := twisted_propagator g qu (momOf g rk imom) base
  [0, 1, 2, 3].foldl (fun a jd => a + inp rk imom jd ic * prop jd id) 0

/-- the same for `spinspin`, from left.  `/repo/src/new_types/spin.hpp:387-407` -/
def multiply_from_left_spinspin (g : Geo) (qu : Quark) (base : Base) (inp : Nat → Nat → SpinSpin ℂ) (rk imom : Nat) : SpinSpin ℂ := fun id1 id2 =>
  let prop := twisted_propagator g qu (momOf g rk imom) base
  [0, 1, 2, 3].foldl (fun a id => a + prop id1 id * inp rk imom id id2) 0

/-- the same for `spinspin`, from right -/
def multiply_from_right_spinspin (g : Geo) (qu : Quark) (base : Base) (inp : Nat → Nat → SpinSpin ℂ) (rk imom : Nat) : SpinSpin ℂ := fun id1 id2 =>
  let prop := twisted_propagator g qu (momOf g rk imom) base
  [0, 1, 2, 3].foldl (fun a id => a + inp rk imom id1 id * prop id id2) 0

/-! ## On-shell quarks -/

/-- the momentum `p` of direction `mu` for the site `imom` of the global lattice: `M_PI*(2*c[mu]+bc[mu])/glbSize[mu]` -/
def momentum (L : Coords) (bc : Dir → ℝ) (imom : Nat) (mu : Dir) : ℝ := Real.pi * (2 * (glbCoordOfGlblx L imom mu : ℝ) + bc mu) / L mu

/-- `four_sinh2_Eh` of `tm_quark_energy`.  `/repo/src/free_theory/twisted_propagator.cpp:23-45` -/
def four_sinh2_Eh (L : Coords) (qu : Quark) (imom : Nat) : ℝ :=
  let m0 := m0_of_kappa qu.kappa
  let mass := qu.mass
  let m2 := m0 * m0 + mass * mass
  let acc := [1, 2, 3].foldl (fun (a : ℝ × ℝ) mu =>
    let sinph := Real.sin (momentum L qu.bc imom mu / 2)
    let sinph2 := sinph * sinph
    let sinph4 := sinph2 * sinph2
    (a.1 + sinph2, a.2 + sinph4)) (0, 0)
  let p2 := acc.1 * 4
  let p4 := acc.2 * 4
  (m2 + p2 * (1 + m0) + p2 * p2 / 4 - p4) / (1 + m0 + p2 / 2)

/-- `tm_quark_energy`; the square root of a negative number (a warning is printed) is not a number in the code and 0 in the model.
`/repo/src/free_theory/twisted_propagator.cpp:23-49` -/
def tm_quark_energy (L : Coords) (qu : Quark) (imom : Nat) : ℝ := 2 * Real.arsinh (Real.sqrt (four_sinh2_Eh L qu imom / 4))

/-- `naive_massless_quark_energy`.  `/repo/src/free_theory/twisted_propagator.cpp:52-59` -/
def naive_massless_quark_energy (L : Coords) (bc : Dir → ℝ) (imom : Nat) : ℝ :=
  let sinh2E := [1, 2, 3].foldl (fun a mu => a + Real.sin (momentum L bc imom mu) ^ 2) (0 : ℝ)
  Real.arsinh (Real.sqrt sinh2E)

/-- the body of `twisted_on_shell_operator_of_imom`, for given absolute value of the energy.
`/repo/src/free_theory/twisted_propagator.cpp:178-205` -/
def on_shell_matrix (L : Coords) (qu : Quark) (imom : Nat) (tilded : Bool) (esign : Int) (base : Base) (abse : ℝ) : SpinSpin ℂ :=
  let e := esign * abse
  let acc := [1, 2, 3].foldl (fun (a : (Dir → ℝ) × ℝ) mu =>
    let p := momentum L qu.bc imom mu
    (Function.update a.1 mu (Real.sin p), a.2 + Real.sin (p / 2) * Real.sin (p / 2))) (fun _ => 0, -(Real.sinh (e / 2) * Real.sinh (e / 2)))
  let M := m0_of_kappa qu.kappa + 2 * acc.2
  let c0 : Base → ℝ := fun b => match b with | .maxTwist => qu.mass | .wilson => M
  let c5 : Base → ℝ := fun b => match b with | .maxTwist => M * tau3 qu.r | .wilson => -qu.mass * tau3 qu.r
  let proj := putToDiag (c0 base)
  let t : Fin 2 := if tilded then 1 else 0
  let se : Fin 2 → ℝ := ![-1, 1]
  let sp : Fin 2 → ℝ := ![1, -1]
  let s5 : Fin 2 → ℝ := ![-1, 1]
  let proj := summProdDouble proj (baseGamma (iGammaOfMu 0)) (se t * Real.sinh e)
  let proj := [1, 2, 3].foldl (fun o mu => summProdIdouble o (baseGamma (iGammaOfMu mu)) (sp t * acc.1 mu)) proj
  summProdIdouble proj (baseGamma 5) (s5 t * c5 base)

/-- `twisted_on_shell_operator_of_imom`: the matrix and the returned energy; none is the crash.
`/repo/src/free_theory/twisted_propagator.cpp:168-206` -/
def twisted_on_shell_operator (L : Coords) (qu : Quark) (imom : Nat) (tilded : Bool) (esign : Int) (base : Base) : Option (SpinSpin ℂ × ℝ) :=
  if esign ≠ -1 ∧ esign ≠ 1 then none else
  some (on_shell_matrix L qu imom tilded esign base (tm_quark_energy L qu imom), tm_quark_energy L qu imom)

/-- `naive_massless_on_shell_operator_of_imom`.  `/repo/src/free_theory/twisted_propagator.cpp:209-231` -/
def naive_massless_on_shell_operator (L : Coords) (bc : Dir → ℝ) (imom : Nat) (esign : Int) : Option (SpinSpin ℂ × ℝ) :=
  if esign ≠ -1 ∧ esign ≠ 1 then none else
  let abse := naive_massless_quark_energy L bc imom
  let e := esign * abse
  let proj := summProdDouble putToZero (baseGamma (iGammaOfMu 0)) (-Real.sinh e)
  some ([1, 2, 3].foldl (fun o mu => summProdIdouble o (baseGamma (iGammaOfMu mu)) (Real.sin (momentum L bc imom mu))) proj, abse)

/-- `W` -/
def W : ℝ := 1 / Real.sqrt 2

/-- `ompg0_eig`.  `/repo/src/free_theory/twisted_propagator.cpp:234-241` -/
def ompg0_eig : Fin 2 → Fin 2 → Fin 4 → ℂ :=
  ![![![⟨W, 0⟩, ⟨0, 0⟩, ⟨W, 0⟩, ⟨0, 0⟩],
      ![⟨0, 0⟩, ⟨W, 0⟩, ⟨0, 0⟩, ⟨W, 0⟩]],
    ![![⟨W, 0⟩, ⟨0, 0⟩, ⟨-W, 0⟩, ⟨0, 0⟩],
      ![⟨0, 0⟩, ⟨W, 0⟩, ⟨0, 0⟩, ⟨-W, 0⟩]]]

/-- `unsafe_spinspin_prod_spin`.  `/repo/src/new_types/spin.hpp:559-570` -/
def spinspin_prod_spin (b : SpinSpin ℂ) (c : Fin 4 → ℂ) : Fin 4 → ℂ := fun id1 => [0, 1, 2, 3].foldl (fun a id2 => a + b id1 id2 * c id2) 0

/-- `!par_apar` -/
def other (p : Fin 2) : Fin 2 := if p = 0 then 1 else 0

/-- `twisted_wavefunction_of_imom`.  `/repo/src/free_theory/twisted_propagator.cpp:244-261` -/
def twisted_wavefunction (L : Coords) (qu : Quark) (imom : Nat) (par_apar s : Fin 2) (base : Base) : Option (Fin 4 → ℂ) :=
  let tilde : Fin 2 → Bool := ![true, false]
  (twisted_on_shell_operator L qu imom (tilde par_apar) 1 base).map fun osp =>
    let wf := spinspin_prod_spin osp.1 (ompg0_eig (other par_apar) s)
    let fact := 1 / Real.sqrt (qu.mass + Real.sinh osp.2)
    let wf := fun id => (⟨(wf id).re * fact, (wf id).im * fact⟩ : ℂ)
    let ig : Fin 2 → Fin 19 := ![0, iGammaOfMu 0]
    diracProdSpin (baseGamma (ig par_apar)) wf

/-- `naive_massless_wavefunction_of_imom`.  `/repo/src/free_theory/twisted_propagator.cpp:264-277` -/
def naive_massless_wavefunction (L : Coords) (bc : Dir → ℝ) (imom : Nat) (par_apar s : Fin 2) : Option (Fin 4 → ℂ) :=
  let esign : Fin 2 → Int := ![1, -1]
  (naive_massless_on_shell_operator L bc imom (esign par_apar)).map fun osp =>
    let wf := spinspin_prod_spin osp.1 (ompg0_eig (other par_apar) s)
    let fact := -1 / Real.sqrt (Real.sinh osp.2)
    fun id => (⟨(wf id).re * fact, (wf id).im * fact⟩ : ℂ)

/-! ## Specification -/

/-- component of the momentum of integer coordinate `n` in a box of side `l`, with phase `pi*theta` at the boundary -/
def lattMom (n theta : ℝ) (l : Nat) : ℝ := Real.pi * (2 * n + theta) / l

/-- the lattice Wilson operator of bare mass `m0` and twisted mass `mu` for (possibly complex) momentum `p`:
`sum_mu (i gamma_mu sin p_mu + 1 - cos p_mu) + m0 + i mu gamma5` -/
def wilsonD (m0 mu : ℝ) (p : Dir → ℂ) : Matrix (Fin 4) (Fin 4) ℂ :=
  ∑ nu, ((I * Complex.sin (p nu)) • γdir nu + (1 - Complex.cos (p nu)) • (1 : Matrix (Fin 4) (Fin 4) ℂ)) + (m0 : ℂ) • 1 + (I * mu) • Γ 5

/-- the chiral rotation `(1 - i t gamma5)/sqrt 2` of a quarter of turn -/
def twistR (t : ℝ) : Matrix (Fin 4) (Fin 4) ℂ := (1 / Real.sqrt 2 : ℂ) • (1 - (I * t) • Γ 5)

/-- sign of the twisted mass of the component `r` of the doublet: negative for `r=0`, positive for `r=1` -/
def rSign (r : Fin 2) : ℝ := if r = 0 then -1 else 1

/-- The quark operator in the two bases: in the Wilson one the twisted mass is `tau mass`, the physical one is obtained rotating the
quark and the antiquark of a quarter of turn -/
def quarkD (qu : Quark) (base : Base) (p : Dir → ℂ) : Matrix (Fin 4) (Fin 4) ℂ :=
  let D := wilsonD (1 / (2 * qu.kappa) - 4) (rSign qu.r * qu.mass) p
  match base with
  | .wilson => D
  | .maxTwist => twistR (rSign qu.r) * D * twistR (rSign qu.r)

end

end Nissa.Free
