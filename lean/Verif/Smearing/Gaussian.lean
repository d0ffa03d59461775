import Verif.Stencil.Plaquette

/-! # Gaussian smearing of the fields, and shift of a field of matrices

Models `/repo/src/operations/smearing/gaussian.hpp` and `/repo/src/operations/shift.hpp`.

A field of the types `su3spinspin`, `colorspinspin`, `spincolor`, `color` has at each site one colour vector for each value of the
other indices: it is taken as a matrix whose row is the colour and whose column is the set `I` of the other indices.  The order of the
storage is left out (the colour product is the same function of the indices).  Exact arithmetic. -/

set_option linter.all false

namespace Nissa.Gsm
open Nissa.Lx Nissa.Sten Nissa.Gauge Matrix
open Nissa.Su3f (M3)

noncomputable section

/-- site of a field of colour vectors -/
abbrev CV (I : Type) := Matrix (Fin 3) I ℂ

/-- body of the loop on `mu`: `H` of the site after the term of the direction.  `/repo/src/operations/smearing/gaussian.hpp:31-40` -/
def hopAdd {I : Type} (kappa : Dir → ℝ) (conf : Nat → Quad) (inp : Nat → CV I) (up dw : Nat → Dir → Nat) (ivol : Nat) (H : CV I) (mu : Dir) : CV I :=
  let ivup := up ivol mu
  let ivdw := dw ivol mu
  let temp := conf ivol mu * inp ivup
  let temp := temp + (conf ivdw mu)ᴴ * inp ivdw
  H + kappa mu • temp

/-- `gaussian_smearing_apply_kappa_H`: `/repo/src/operations/smearing/gaussian.hpp:13-42` -/
def apply_kappa_H {I : Type} (g : Geo) (ji : Nat) (jq : Quad) (jv : CV I) (kappa : Dir → ℝ) (conf : Nat → Nat → Quad) (inp : Nat → Nat → CV I) :
    Nat → Nat → CV I := fun rk ivol =>
  let r := coordOfLx rk g.R
  [1, 2, 3].foldl (hopAdd kappa (mem g jq conf r) (mem g jv inp r) (upT g r ji) (dwT g r ji) ivol) 0

/-- one turn of the loop of the iterations.  `/repo/src/operations/smearing/gaussian.hpp:78-87` -/
def smearTurn {I : Type} (g : Geo) (ji : Nat) (jq : Quad) (jv : CV I) (kappa : Dir → ℝ) (conf : Nat → Nat → Quad) (temp : Nat → Nat → CV I) : Nat → Nat → CV I :=
  let norm_fact := 1 / (1 + 2 * (kappa 1 + kappa 2 + kappa 3))
  let H := apply_kappa_H g ji jq jv kappa conf temp
  let temp := fun rk ivol => temp rk ivol + H rk ivol
  fun rk ivol => norm_fact • temp rk ivol

/-- `gaussian_smearing`, version with a coefficient for each direction: the new content of `smear_sc`.
`/repo/src/operations/smearing/gaussian.hpp:46-95` -/
def gaussian_smearing {I : Type} (g : Geo) (ji : Nat) (jq : Quad) (jv : CV I) (origi_sc : Nat → Nat → CV I) (conf : Nat → Nat → Quad) (kappa : Dir → ℝ) (niter : Int) :
    Nat → Nat → CV I :=
  if niter < 1 then origi_sc
  else (List.range niter.toNat).foldl (fun temp _ => smearTurn g ji jq jv kappa conf temp) origi_sc

/-- the version with one coefficient: `/repo/src/operations/smearing/gaussian.hpp:156-169` -/
def gaussian_smearing_iso {I : Type} (g : Geo) (ji : Nat) (jq : Quad) (jv : CV I) (origi_sc : Nat → Nat → CV I) (conf : Nat → Nat → Quad) (kappa_iso : ℝ) (niter : Int) :
    Nat → Nat → CV I :=
  gaussian_smearing g ji jq jv origi_sc conf ![0.0, kappa_iso, kappa_iso, kappa_iso] niter

/-- a turn of the loop on the terms: state `(temp1, smear_sc)`.  `/repo/src/operations/smearing/gaussian.hpp:137-150` -/
def polyTurn {I : Type} (g : Geo) (ji : Nat) (jq : Quad) (jv : CV I) (conf : Nat → Nat → Quad) (kappa : ℝ) (coeff : Nat → ℝ) (exponent : Nat → Int)
    (s : (Nat → Nat → CV I) × (Nat → Nat → CV I)) (iterm : Nat) : (Nat → Nat → CV I) × (Nat → Nat → CV I) :=
  let nstep := exponent iterm
  let nstep := if iterm > 0 then nstep - exponent (iterm - 1) else nstep
  let temp1 := gaussian_smearing_iso g ji jq jv s.1 conf kappa nstep
  let temp1 := fun rk ivol => coeff iterm • temp1 rk ivol
  (temp1, fun rk ivol => s.2 rk ivol + temp1 rk ivol)

/-- `gaussian_smearing`, version with a polynomial.  (The template passes the two buffers as references to parameters which are pointers: it is modelled with the evident
meaning.)  `/repo/src/operations/smearing/gaussian.hpp:111-154` -/
def gaussian_smearing_poly {I : Type} (g : Geo) (ji : Nat) (jq : Quad) (jv : CV I) (origi_sc : Nat → Nat → CV I) (conf : Nat → Nat → Quad) (kappa : ℝ) (nterm : Nat)
    (coeff : Nat → ℝ) (exponent : Nat → Int) : Nat → Nat → CV I :=
  open Classical in
  if nterm = 0 ∨ (nterm = 1 ∧ exponent 0 = 0 ∧ coeff 0 = 1) then origi_sc
  else ((List.range nterm).foldl (polyTurn g ji jq jv conf kappa coeff exponent) (origi_sc, fun _ _ => 0)).2

/-! ### Shift -/

/-- the coordinates of a line: `/repo/src/operations/shift.hpp:31-38` -/
def perpCoords (g : Geo) (mu : Dir) (iperp : Nat) : Coords :=
  let step := fun (s : Nat × Coords) (inu : Nat) =>
    let nu := (Geo.perpDirs mu).getD inu 0
    (s.1 / g.loc nu, Function.update s.2 nu (s.1 % g.loc nu))
  ([2, 1, 0].foldl step (iperp, fun _ => 0)).2

/-- the loop along the line: memory, site, coordinate along `mu`.  The `do ... while` is cut at `fuel` turns (`none`).
`/repo/src/operations/shift.hpp:50-62` -/
def shiftLoop {V : Type} (neigh : Nat → Nat) (sh lim : Int) : Nat → (Nat → V) → Nat → Int → Option ((Nat → V) × Nat)
  | 0, _, _, _ => none
  | fuel + 1, u, isite, x =>
    let ineigh := neigh isite
    let u := Function.update u isite (u ineigh)
    let x := x + sh
    if x ≠ lim then shiftLoop neigh sh lim fuel u ineigh x else some (u, isite)

/-- a line of the lattice.  `/repo/src/operations/shift.hpp:29-66` -/
def shiftLine {V : Type} (g : Geo) (r : Coords) (ji : Nat) (mu : Dir) (sign : Int) (u : Nat → V) (iperp : Nat) : Option (Nat → V) :=
  let sh : Int := if sign > 0 then -1 else 1
  let st : Int := if sign > 0 then (g.loc mu : Int) - 1 else 0
  let en : Int := if sign > 0 then 0 else (g.loc mu : Int) - 1
  let x := Function.update (perpCoords g mu iperp) mu st.toNat
  let isite := lxOfCoord x g.loc
  let buf := u isite
  let neigh := fun i => if sign > 0 then dwT g r ji i mu else upT g r ji i mu
  (shiftLoop neigh sh (en + sh) (g.loc mu) u isite st).map fun s =>
    if g.R mu = 1 then Function.update s.1 s.2 buf else s.1

/-- `su3_vec_single_shift` on the rank `rk`; the lines are treated in the order `sched`.  The memory is that of the field after the update of the halo;
the result is the memory (local sites and halo).  `/repo/src/operations/shift.hpp:11-67` -/
def su3_vec_single_shift {V : Type} (g : Geo) (ji : Nat) (jv : V) (mu : Dir) (sign : Int) (sched : List Nat) (u : Nat → Nat → V) (rk : Nat) : Option (Nat → V) :=
  let r := coordOfLx rk g.R
  sched.foldlM (shiftLine g r ji mu sign) (mem g jv u r)

/-- `quad_su3_vec_single_shift`; the table of pointers `loclx_neigh` has two elements, the others are not there (`none`).
`/repo/src/operations/shift.hpp:69-88`, `/repo/src/geometry/geometry_lx.cpp:522-523` -/
def quad_su3_vec_single_shift {V : Type} (g : Geo) (ji : Nat) (jv : V) (mu : Dir) (sign : Int) (u : Nat → Nat → V) (rk ivol : Nat) : Option V :=
  let r := coordOfLx rk g.R
  if 1 - sign = 0 then some (mem g jv u r (dwT g r ji ivol mu))
  else if 1 - sign = 1 then some (mem g jv u r (upT g r ji ivol mu))
  else none

/-! ### Specification -/

/-- one application of the smearing: average of the site with its parallel transported spatial neighbours -/
def avg {I : Type} (g : Geo) (kappa : Dir → ℝ) (U : Coords → Quad) (v : Coords → CV I) (x : Coords) : CV I :=
  (1 / (1 + 2 * (kappa 1 + kappa 2 + kappa 3))) •
    (v x + ∑ i : Fin 3, kappa i.succ • (U x i.succ * v (tshift g x i.succ 1) + (U (tshift g x i.succ (-1)) i.succ)ᴴ * v (tshift g x i.succ (-1))))

/-- scalar product on a set of sites -/
def dot {I : Type} [Fintype I] (s : Finset Coords) (y v : Coords → CV I) : ℂ := ∑ x ∈ s, ((y x)ᴴ * v x).trace

end

end Nissa.Gsm
