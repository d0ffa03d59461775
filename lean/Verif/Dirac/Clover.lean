import Verif.Dirac.PropsWilson2

/-! # Clover leaves, chromo operator, clover term, topological charge

Models `four_leaves_point` (`/repo/src/measures/gauge/topological_charge.hpp:134-192`), `point_chromo_operator` and
`chromo_operator` (`/repo/src/operations/su3_paths/clover_term.cpp:55-108`), the inclusion and removal of the coefficient
(`/repo/src/operations/su3_paths/clover_term.hpp:47-97`) and the topological charge
(`/repo/src/measures/gauge/topological_charge.cpp:18-106`).  Exact real arithmetic. -/

set_option linter.all false

namespace Nissa.Clv
open Nissa.Lx Nissa.Sten Nissa.Su3f Nissa.Gauge Nissa.Gamma Nissa.StD Nissa.Wilson Nissa.Paths Matrix Complex

noncomputable section

/-- value of an `as2t_su3` -/
abbrev As2t := Fin 6 → M3

/-- body of the loop of `four_leaves_point` in the plane `(mu,nu)`: the value of `leaves_summ[munu]` after the four leaves.
`/repo/src/measures/gauge/topological_charge.hpp:141-189` -/
def leavesPlane (up dw : Nat → Dir → Nat) (conf : Nat → Quad) (X : Nat) (mu nu : Dir) : M3 :=
  let A := up X mu
  let D := dw X mu
  let B := up X nu
  let F := dw X nu
  let C := up D nu
  let E := dw D nu
  let G := dw A nu
  -- leaf 1
  let temp1 := conf X mu * conf A nu
  let temp2 := temp1 * (conf B mu)ᴴ
  let summ := temp2 * (conf X nu)ᴴ
  -- leaf 2
  let temp1 := conf X nu * (conf C mu)ᴴ
  let temp2 := temp1 * (conf D nu)ᴴ
  let temp1 := temp2 * conf D mu
  let summ := summ + temp1
  -- leaf 3
  let temp1 := (conf D mu)ᴴ * (conf E nu)ᴴ
  let temp2 := temp1 * conf E mu
  let temp1 := temp2 * conf F nu
  let summ := summ + temp1
  -- leaf 4
  let temp1 := (conf F nu)ᴴ * conf F mu
  let temp2 := temp1 * conf G nu
  let temp1 := temp2 * (conf X mu)ᴴ
  summ + temp1

/-- `four_leaves_point`: the loops on the planes fill `leaves_summ[edge_numb[mu][nu]]`; `l0` is its previous content.
`/repo/src/measures/gauge/topological_charge.hpp:134-192` -/
def four_leaves_point (up dw : Nat → Dir → Nat) (conf : Nat → Quad) (X : Nat) (l0 : As2t) : As2t :=
  planes.foldl (fun leaves mn => Function.update leaves (Geo.edgeNumb mn.1 mn.2) (leavesPlane up dw conf X mn.1 mn.2)) l0

/-- antisymmetrisation, component by component.  `/repo/src/operations/su3_paths/clover_term.cpp:66-74` -/
def antisymm4 (l : M3) : M3 := fun ic1 ic2 => ⟨((l ic1 ic2).re - (l ic2 ic1).re) / 4, ((l ic1 ic2).im + (l ic2 ic1).im) / 4⟩

/-- `su3_prod_idouble(a,b,r)`: `a=i*r*b`, `/repo/src/new_types/su3_op.hpp:1194-1203` -/
def su3_prod_idouble (b : M3) (r : ℝ) : M3 := fun ic jc => ⟨-(b ic jc).im * r, (b ic jc).re * r⟩

/-- the combinations at the end of `point_chromo_operator`.  `/repo/src/operations/su3_paths/clover_term.cpp:76-94` -/
def chromo_of_P (P : As2t) : Clov :=
  let A := P 3 - P 2
  let B := P 4 + P 1
  let C := P 5 - P 0
  let D := P 3 + P 2
  let E := P 4 - P 1
  let F := P 5 + P 0
  ![su3_prod_idouble A 1, B + su3_prod_idouble C 1, su3_prod_idouble D 1, E + su3_prod_idouble F 1]

/-- `point_chromo_operator`; `l0` the content of the uninitialised `leaves`.
`/repo/src/operations/su3_paths/clover_term.cpp:55-95` -/
def point_chromo_operator (up dw : Nat → Dir → Nat) (conf : Nat → Quad) (X : Nat) (l0 : As2t) : Clov :=
  let leaves := four_leaves_point up dw conf X l0
  chromo_of_P (fun i => antisymm4 (leaves i))

/-- `chromo_operator`, site `X` of the rank `rk`.  `/repo/src/operations/su3_paths/clover_term.cpp:97-111` -/
def chromo_operator (g : Geo) (ji : Nat) (jq : Quad) (l0 : As2t) (conf : Nat → Nat → Quad) (rk X : Nat) : Clov :=
  let r := coordOfLx rk g.R
  point_chromo_operator (upT g r ji) (dwT g r ji) (mem g jq conf r) X l0

/-- `chromo_operator_factor`.  `/repo/src/operations/su3_paths/clover_term.hpp:47-50` -/
def chromo_operator_factor (cSW : ℝ) : ℝ := -cSW / 4

/-- `chromo_operator_adjust_cSW`.  `/repo/src/operations/su3_paths/clover_term.hpp:52-68` -/
def adjust_cSW (Cl : Nat → Nat → Clov) (cSW_new cSW_old : ℝ) : Nat → Nat → Clov :=
  fun rk X i => (chromo_operator_factor cSW_new / chromo_operator_factor cSW_old) • Cl rk X i

/-- the shift which the code adds to `cSW` in order to be able to remove it -/
def cSWshift : ℝ := 1e-16

/-- `chromo_operator_include_cSW`.  `/repo/src/operations/su3_paths/clover_term.hpp:72-77` -/
def include_cSW (Cl : Nat → Nat → Clov) (cSW : ℝ) : Nat → Nat → Clov := adjust_cSW Cl (cSW + cSWshift) (-4)

/-- `chromo_operator_remove_cSW`.  `/repo/src/operations/su3_paths/clover_term.hpp:79-84` -/
def remove_cSW (Cl : Nat → Nat → Clov) (cSW : ℝ) : Nat → Nat → Clov := adjust_cSW Cl (-4) (cSW + cSWshift)

/-- `clover_term`.  `/repo/src/operations/su3_paths/clover_term.hpp:86-94` -/
def clover_term (g : Geo) (ji : Nat) (jq : Quad) (l0 : As2t) (cSW : ℝ) (conf : Nat → Nat → Quad) : Nat → Nat → Clov :=
  include_cSW (chromo_operator g ji jq l0 conf) cSW

/-- contribution to the charge of one pair of planes.  `/repo/src/measures/gauge/topological_charge.cpp:62-76` -/
def chargePair (leaves : As2t) (sign : ℝ) (ip0 ip1 : Fin 6) : ℝ :=
  let norm_fact := 1 / (128 * Real.pi * Real.pi)
  let clock := leaves ip0 * (leaves ip1)ᴴ
  let aclock := leaves ip0 * leaves ip1
  sign * (clock.trace.re - aclock.trace.re) * norm_fact

/-- `local_topological_charge`: after the reset the three pairs of planes are added.
`/repo/src/measures/gauge/topological_charge.cpp:34-81` -/
def local_topological_charge (g : Geo) (ji : Nat) (jq : Quad) (l0 : As2t) (conf : Nat → Nat → Quad) (rk ivol : Nat) : ℝ :=
  let r := coordOfLx rk g.R
  let leaves := four_leaves_point (upT g r ji) (dwT g r ji) (mem g jq conf r) ivol l0
  ([(1, 0, 5), (-1, 1, 4), (1, 2, 3)] : List (ℝ × Fin 6 × Fin 6)).foldl (fun c p => c + chargePair leaves p.1 p.2.1 p.2.2) 0

/-- `total_topological_charge_lx_conf`.  `/repo/src/measures/gauge/topological_charge.cpp:84-94` -/
def total_topological_charge_lx_conf (g : Geo) (ji : Nat) (jq : Quad) (l0 : As2t) (sched : Nat → Nat → List Nat) (conf : Nat → Nat → Quad) : ℝ :=
  ∑ rk ∈ Finset.range g.nranks, Reduce.reduceNoPreserve (· + ·) (sched rk) g.locVol (local_topological_charge g ji jq l0 conf rk)

/-! ### Specification, on the global lattice -/

/-- sum of the four squares around `x` in the plane `(mu,nu)`, all run counterclockwise starting from `x` -/
def leavesSpec (g : Geo) (U : Coords → Quad) (x : Coords) (mu nu : Dir) : M3 :=
  pathProd g U x [(mu, true), (nu, true), (mu, false), (nu, false)] +
  pathProd g U x [(nu, true), (mu, false), (nu, false), (mu, true)] +
  pathProd g U x [(mu, false), (nu, false), (mu, true), (nu, true)] +
  pathProd g U x [(nu, false), (mu, true), (nu, true), (mu, false)]

/-- the field strength `F_mu_nu=(Q_mu_nu-Q_mu_nu^+)/8` -/
def Fst (g : Geo) (U : Coords → Quad) (x : Coords) (mu nu : Dir) : M3 :=
  (1 / 8 : ℂ) • (leavesSpec g U x mu nu - (leavesSpec g U x mu nu)ᴴ)

/-- `sum_{mu,nu} gamma_mu gamma_nu (x) F_mu_nu`, as matrix in the spin whose elements are colour matrices -/
def sigmaF (g : Geo) (U : Coords → Quad) (x : Coords) (i j : Fin 4) : M3 :=
  ∑ mu : Dir, ∑ nu : Dir, (γdir mu * γdir nu) i j • Fst g U x mu nu

/-- the antisymmetric symbol -/
def eps (a b c d : Fin 4) : ℤ :=
  let s := fun (x y : Fin 4) => Int.sign ((y : ℤ) - (x : ℤ))
  s a b * s a c * s a d * s b c * s b d * s c d

/-- density of charge: `-1/(32 pi^2) eps_{mu nu rho sigma} tr F_mu_nu F_rho_sigma` -/
def chargeSpec (g : Geo) (U : Coords → Quad) (x : Coords) : ℝ :=
  -1 / (32 * Real.pi ^ 2) * ∑ a : Fin 4, ∑ b : Fin 4, ∑ c : Fin 4, ∑ d : Fin 4, (eps a b c d : ℝ) * (Fst g U x a b * Fst g U x c d).trace.re

/-! ### Leaves -/

theorem four_leaves_fill (up dw : Nat → Dir → Nat) (conf : Nat → Quad) (X : Nat) (l0 : As2t) :
    four_leaves_point up dw conf X l0 = ![leavesPlane up dw conf X 0 1, leavesPlane up dw conf X 0 2, leavesPlane up dw conf X 0 3,
      leavesPlane up dw conf X 1 2, leavesPlane up dw conf X 1 3, leavesPlane up dw conf X 2 3] := by
  unfold four_leaves_point
  rw [planes_eq]
  simp only [List.foldl]
  funext e
  fin_cases e <;> rfl

section
variable {g : Geo} (ok : g.Ok)
include ok

theorem leavesPlane_eq (ji : Nat) (jq : Quad) (U : Nat → Nat → Quad) {r : Coords} (hr : IsRank g r) {X : Nat} (hX : X < g.locVol)
    {x : Coords} (hx : glbCoordOfLoclx g r X = some x) (hxb : x ∈ box g.L) {mu nu : Dir} (hne : mu ≠ nu) :
    leavesPlane (upT g r ji) (dwT g r ji) (mem g jq U r) X mu nu = leavesSpec g (glob g U) x mu nu := by
  have eX := mem_here ok jq U hr hX hx
  have eA := mem_up ok jq ji U hr hX hx mu
  have eB := mem_up ok jq ji U hr hX hx nu
  have eD := mem_dw ok jq ji U hr hX hx mu
  have eF := mem_dw ok jq ji U hr hX hx nu
  have eC : mem g jq U r (upT g r ji (dwT g r ji X mu) nu) = _ := mem_step2 ok jq ji U hr hX hx hne (d := -1) (e := 1) (.inr rfl) (.inl rfl)
  have eE : mem g jq U r (dwT g r ji (dwT g r ji X mu) nu) = _ := mem_step2 ok jq ji U hr hX hx hne (d := -1) (e := -1) (.inr rfl) (.inr rfl)
  have eG : mem g jq U r (dwT g r ji (upT g r ji X mu) nu) = _ := mem_step2 ok jq ji U hr hX hx hne (d := 1) (e := -1) (.inl rfl) (.inr rfl)
  unfold leavesPlane leavesSpec
  simp only [eX, eA, eB, eD, eF, eC, eE, eG, pathProd, Matrix.mul_one]
  have b1 : ∀ (y : Coords) (hy : y ∈ box g.L) (m : Dir), tshift g (tshift g y m 1) m (-1) = y := fun y hy m => tshift_back ok hy m 1 (.inl rfl)
  have b2 : ∀ (y : Coords) (hy : y ∈ box g.L) (m : Dir), tshift g (tshift g y m (-1)) m 1 = y := fun y hy m => tshift_back ok hy m (-1) (.inr rfl)
  have h := fun m d => tshift_mem_box ok hxb m d
  rw [tshift_comm g x hne 1 1, b1 _ (h nu 1), b1 _ hxb, tshift_comm g x hne.symm 1 (-1), b1 _ (h mu (-1)),
    tshift_comm g x hne (-1) (-1), b2 _ (h nu (-1)), tshift_comm g x hne.symm (-1) 1, b2 _ (h mu 1), b1 _ hxb]
  simp only [Matrix.mul_assoc]
end

end
end Nissa.Clv
