import Verif.Dirac.StD
import Verif.Spin.PropsGamma2

/-! # Wilson twisted-mass (clover) Dirac operators

Models `/repo/src/dirac_operators/tmQ/dirac_operator_tmQ_portable.cpp`, `/repo/src/dirac_operators/tmclovQ/dirac_operator_tmclovQ.cpp`,
`/repo/src/dirac_operators/tmclovQ2/dirac_operator_tmclovQ2.hpp`, `/repo/src/dirac_operators/tmclovQ/reconstruct_tmclov_doublet.cpp`
and the application of the clover term (`/repo/src/operations/su3_paths/clover_term.hpp:15-33`).
Arithmetic is exact; `1/(2*kappa)` with `kappa=0` is not a number in the code and 0 in the model: the theorems give the result as
function of the coefficient. -/

set_option linter.all false

namespace Nissa.Wilson
open Nissa.Lx Nissa.Sten Nissa.Su3f Nissa.Gauge Nissa.Gamma Nissa.StD Matrix Complex

noncomputable section

/-- value of a `spincolor` -/
abbrev SpCol := Fin 4 → Col

/-- value of a `clover_term_t` -/
abbrev Clov := Fin 4 → M3

/-- `color_isumm(a,b,c)`: `a=b+i*c`.  `/repo/src/new_types/su3_op.hpp:253-263` -/
def color_isumm (b c : Col) : Col := b + I • c
/-- `color_isubt(a,b,c)`: `a=b-i*c`.  `/repo/src/new_types/su3_op.hpp:265-276` -/
def color_isubt (b c : Col) : Col := b - I • c

/-- the switch before the forward product.  `/repo/src/dirac_operators/tmQ/dirac_operator_tmQ_portable.cpp:54-73`,
`/repo/src/dirac_operators/tmD_eoprec/dirac_operator_tmD_eoprec_portable.hpp:61-80` -/
def fwdProj (mu : Dir) (v : SpCol) : Col × Col :=
  match mu with
  | 0 => (v 0 + v 2, v 1 + v 3)
  | 1 => (color_isumm (v 0) (v 3), color_isumm (v 1) (v 2))
  | 2 => (v 0 + v 3, v 1 - v 2)
  | 3 => (color_isumm (v 0) (v 2), color_isubt (v 1) (v 3))

/-- the sums and the switch after the forward product.  `/repo/src/dirac_operators/tmQ/dirac_operator_tmQ_portable.cpp:84-105` -/
def fwdReco (mu : Dir) (out : SpCol) (c2 c3 : Col) : SpCol :=
  match mu with
  | 0 => ![out 0 + c2, out 1 + c3, out 2 + c2, out 3 + c3]
  | 1 => ![out 0 + c2, out 1 + c3, color_isubt (out 2) c3, color_isubt (out 3) c2]
  | 2 => ![out 0 + c2, out 1 + c3, out 2 - c3, out 3 + c2]
  | 3 => ![out 0 + c2, out 1 + c3, color_isubt (out 2) c2, color_isumm (out 3) c3]

/-- the switch before the backward product.  `/repo/src/dirac_operators/tmQ/dirac_operator_tmQ_portable.cpp:109-127` -/
def bwdProj (mu : Dir) (v : SpCol) : Col × Col :=
  match mu with
  | 0 => (v 0 - v 2, v 1 - v 3)
  | 1 => (color_isubt (v 0) (v 3), color_isubt (v 1) (v 2))
  | 2 => (v 0 - v 3, v 1 + v 2)
  | 3 => (color_isubt (v 0) (v 2), color_isumm (v 1) (v 3))

/-- the sums and the switch after the backward product.  `/repo/src/dirac_operators/tmQ/dirac_operator_tmQ_portable.cpp:138-159` -/
def bwdReco (mu : Dir) (out : SpCol) (c2 c3 : Col) : SpCol :=
  match mu with
  | 0 => ![out 0 + c2, out 1 + c3, out 2 - c2, out 3 - c3]
  | 1 => ![out 0 + c2, out 1 + c3, color_isumm (out 2) c3, color_isumm (out 3) c2]
  | 2 => ![out 0 + c2, out 1 + c3, out 2 + c3, out 3 - c2]
  | 3 => ![out 0 + c2, out 1 + c3, color_isumm (out 2) c2, color_isubt (out 3) c3]

/-- `if(anis.has_value() and mu>0)` multiplies the two colours.  `/repo/src/dirac_operators/tmQ/dirac_operator_tmQ_portable.cpp:78-82` -/
def anisFix (anis : Option ℝ) (mu : Dir) (c : Col) : Col :=
  match anis with
  | some a => if 0 < mu then a • c else c
  | none => c

/-- body of the loop on the directions: forward then backward.  `here`, `dw` are the links read at the site and at the backward
neighbours, `up`, `dn` the spinors at the neighbours.  `/repo/src/dirac_operators/tmQ/dirac_operator_tmQ_portable.cpp:47-160`,
`/repo/src/dirac_operators/tmD_eoprec/dirac_operator_tmD_eoprec_portable.hpp:54-167` -/
def hopStep (anis : Option ℝ) (here : Quad) (dw : Dir → Quad) (up dn : Dir → SpCol) (out : SpCol) (mu : Dir) : SpCol :=
  let t := fwdProj mu (up mu)
  let c2 := here mu *ᵥ t.1
  let c3 := here mu *ᵥ t.2
  let out := fwdReco mu out (anisFix anis mu c2) (anisFix anis mu c3)
  let t := bwdProj mu (dn mu)
  let c2 := (dw mu mu)ᴴ *ᵥ t.1
  let c3 := (dw mu mu)ᴴ *ᵥ t.2
  bwdReco mu out (anisFix anis mu c2) (anisFix anis mu c3)

/-- one component of the last loop, real and imaginary parts as written: `s` is the sign of `gamma5`.
`/repo/src/dirac_operators/tmQ/dirac_operator_tmQ_portable.cpp:165-175` -/
def tmQFinal (kcf mass : ℝ) (s : ℝ) (o i : ℂ) : ℂ :=
  ⟨-s * 0.5 * o.re + s * kcf * i.re - mass * i.im, -s * 0.5 * o.im + s * kcf * i.im + mass * i.re⟩

/-- `apply_tmQ`, site `X` of the rank `rk`.  `/repo/src/dirac_operators/tmQ/dirac_operator_tmQ_portable.cpp:29-176` -/
def apply_tmQ (g : Geo) (ji : Nat) (jq : Quad) (jv : SpCol) (conf : Nat → Nat → Quad) (kappa : ℝ) (anis : Option ℝ) (mass : ℝ)
    (inp : Nat → Nat → SpCol) (rk X : Nat) : SpCol :=
  let r := coordOfLx rk g.R
  let cf := mem g jq conf r
  let iv := mem g jv inp r
  let kcf := 1 / (2 * kappa)
  let out := dirs.foldl (hopStep anis (cf X) (fun mu => cf (dwT g r ji X mu)) (fun mu => iv (upT g r ji X mu)) (fun mu => iv (dwT g r ji X mu))) 0
  fun id c => tmQFinal kcf mass (if (id : Nat) < 2 then 1 else -1) (out id c) (iv X id c)

/-- `unsafe_apply_point_chromo_operator_to_spincolor`.  `/repo/src/operations/su3_paths/clover_term.hpp:15-33` -/
def point_chromo_to_spincolor (Cl : Clov) (inp : SpCol) : SpCol :=
  ![Cl 0 *ᵥ inp 0 + (Cl 1)ᴴ *ᵥ inp 1, Cl 1 *ᵥ inp 0 - Cl 0 *ᵥ inp 1, Cl 2 *ᵥ inp 2 + (Cl 3)ᴴ *ᵥ inp 3, Cl 3 *ᵥ inp 2 - Cl 2 *ᵥ inp 3]

/-- `maybeFixAnis`.  `/repo/src/dirac_operators/tmclovQ/dirac_operator_tmclovQ.cpp:48-57` -/
def maybeFixAnis (anis : Option ℝ) (c : Col) : Col :=
  match anis with
  | some a => a • c
  | none => c

/-- the hopping part of `apply_tmclovQ`, unrolled as in the code.  `/repo/src/dirac_operators/tmclovQ/dirac_operator_tmclovQ.cpp:59-163` -/
def tmclovHop (anis : Option ℝ) (here : Quad) (dw : Dir → Quad) (up dn : Dir → SpCol) : SpCol :=
  -- forward 0
  let c0 := up 0 0 + up 0 2
  let c1 := up 0 1 + up 0 3
  let t2 := here 0 *ᵥ c0
  let t3 := here 0 *ᵥ c1
  let temp : SpCol := ![t2, t3, t2, t3]
  -- backward 0
  let c0 := dn 0 0 - dn 0 2
  let c1 := dn 0 1 - dn 0 3
  let c2 := (dw 0 0)ᴴ *ᵥ c0
  let c3 := (dw 0 0)ᴴ *ᵥ c1
  let temp : SpCol := ![temp 0 + c2, temp 1 + c3, temp 2 - c2, temp 3 - c3]
  -- forward 1
  let c0 := color_isumm (up 1 0) (up 1 3)
  let c1 := color_isumm (up 1 1) (up 1 2)
  let c2 := maybeFixAnis anis (here 1 *ᵥ c0)
  let c3 := maybeFixAnis anis (here 1 *ᵥ c1)
  let temp : SpCol := ![temp 0 + c2, temp 1 + c3, color_isubt (temp 2) c3, color_isubt (temp 3) c2]
  -- backward 1
  let c0 := color_isubt (dn 1 0) (dn 1 3)
  let c1 := color_isubt (dn 1 1) (dn 1 2)
  let c2 := maybeFixAnis anis ((dw 1 1)ᴴ *ᵥ c0)
  let c3 := maybeFixAnis anis ((dw 1 1)ᴴ *ᵥ c1)
  let temp : SpCol := ![temp 0 + c2, temp 1 + c3, color_isumm (temp 2) c3, color_isumm (temp 3) c2]
  -- forward 2
  let c0 := up 2 0 + up 2 3
  let c1 := up 2 1 - up 2 2
  let c2 := maybeFixAnis anis (here 2 *ᵥ c0)
  let c3 := maybeFixAnis anis (here 2 *ᵥ c1)
  let temp : SpCol := ![temp 0 + c2, temp 1 + c3, temp 2 - c3, temp 3 + c2]
  -- backward 2
  let c0 := dn 2 0 - dn 2 3
  let c1 := dn 2 1 + dn 2 2
  let c2 := maybeFixAnis anis ((dw 2 2)ᴴ *ᵥ c0)
  let c3 := maybeFixAnis anis ((dw 2 2)ᴴ *ᵥ c1)
  let temp : SpCol := ![temp 0 + c2, temp 1 + c3, temp 2 + c3, temp 3 - c2]
  -- forward 3
  let c0 := color_isumm (up 3 0) (up 3 2)
  let c1 := color_isubt (up 3 1) (up 3 3)
  let c2 := maybeFixAnis anis (here 3 *ᵥ c0)
  let c3 := maybeFixAnis anis (here 3 *ᵥ c1)
  let temp : SpCol := ![temp 0 + c2, temp 1 + c3, color_isubt (temp 2) c2, color_isumm (temp 3) c3]
  -- backward 3
  let c0 := color_isubt (dn 3 0) (dn 3 2)
  let c1 := color_isumm (dn 3 1) (dn 3 3)
  let c2 := maybeFixAnis anis ((dw 3 3)ᴴ *ᵥ c0)
  let c3 := maybeFixAnis anis ((dw 3 3)ᴴ *ᵥ c1)
  ![temp 0 + c2, temp 1 + c3, color_isumm (temp 2) c2, color_isubt (temp 3) c3]

/-- one component of the last loop.  `/repo/src/dirac_operators/tmclovQ/dirac_operator_tmclovQ.cpp:167-177` -/
def tmclovQFinal (kcf mu : ℝ) (s : ℝ) (cl t i : ℂ) : ℂ :=
  ⟨s * cl.re - s * 0.5 * t.re + s * kcf * i.re - mu * i.im, s * cl.im - s * 0.5 * t.im + s * kcf * i.im + mu * i.re⟩

/-- `apply_tmclovQ`.  `/repo/src/dirac_operators/tmclovQ/dirac_operator_tmclovQ.cpp:15-184` -/
def apply_tmclovQ (g : Geo) (ji : Nat) (jq : Quad) (jv : SpCol) (conf : Nat → Nat → Quad) (kappa : ℝ) (anis : Option ℝ) (Cl : Nat → Nat → Clov)
    (mu : ℝ) (inp : Nat → Nat → SpCol) (rk X : Nat) : SpCol :=
  let r := coordOfLx rk g.R
  let cf := mem g jq conf r
  let iv := mem g jv inp r
  let kcf := 1 / (2 * kappa)
  let Clin := point_chromo_to_spincolor (Cl rk X) (iv X)
  let temp := tmclovHop anis (cf X) (fun mu => cf (dwT g r ji X mu)) (fun mu => iv (upT g r ji X mu)) (fun mu => iv (dwT g r ji X mu))
  fun id c => tmclovQFinal kcf mu (if (id : Nat) < 2 then 1 else -1) (Clin id c) (temp id c) (iv X id c)

/-- `apply_tmclovQ2`.  `/repo/src/dirac_operators/tmclovQ2/dirac_operator_tmclovQ2.hpp:9-20` -/
def apply_tmclovQ2 (g : Geo) (ji : Nat) (jq : Quad) (jv : SpCol) (conf : Nat → Nat → Quad) (kappa : ℝ) (anis : Option ℝ) (Cl : Nat → Nat → Clov)
    (mu : ℝ) (inp : Nat → Nat → SpCol) : Nat → Nat → SpCol :=
  let temp := apply_tmclovQ g ji jq jv conf kappa anis Cl (mu) inp
  apply_tmclovQ g ji jq jv conf kappa anis Cl (-mu) temp

/-- `apply_tmclovQ2_m2`.  `/repo/src/dirac_operators/tmclovQ2/dirac_operator_tmclovQ2.hpp:22-32` -/
def apply_tmclovQ2_m2 (g : Geo) (ji : Nat) (jq : Quad) (jv : SpCol) (conf : Nat → Nat → Quad) (kappa : ℝ) (anis : Option ℝ) (Cl : Nat → Nat → Clov)
    (mu2 : ℝ) (inp : Nat → Nat → SpCol) : Nat → Nat → SpCol :=
  apply_tmclovQ2 g ji jq jv conf kappa anis Cl (Real.sqrt mu2) inp

/-- `reconstruct_tmclov_doublet`: the pair `(outminus,outplus)`.
`/repo/src/dirac_operators/tmclovQ/reconstruct_tmclov_doublet.cpp:14-34` -/
def reconstruct_tmclov_doublet (g : Geo) (ji : Nat) (jq : Quad) (jv : SpCol) (conf : Nat → Nat → Quad) (kappa : ℝ) (anis : Option ℝ)
    (Cl : Nat → Nat → Clov) (mu : ℝ) (inp : Nat → Nat → SpCol) : (Nat → Nat → SpCol) × (Nat → Nat → SpCol) :=
  let outminus := apply_tmclovQ g ji jq jv conf kappa anis Cl mu inp
  let outplus := fun rk ivol => outminus rk ivol + fun id c => (((-2 * mu : ℝ) : ℂ) * I) * inp rk ivol id c
  (outminus, outplus)

/-! ### Specification, on the global lattice -/

/-- a matrix on the spin -/
def spinMul (M : Matrix (Fin 4) (Fin 4) ℂ) (v : SpCol) : SpCol := fun i => ∑ j, M i j • v j

/-- a matrix on the colour -/
def colMul (U : M3) (v : SpCol) : SpCol := fun i => U *ᵥ v i

/-- relative weight of the directions -/
def weight (anis : Option ℝ) (mu : Dir) : ℝ := if mu = 0 then 1 else anis.getD 1

/-- Wilson hopping: `sum_mu w_mu ((1-gamma_mu) U_mu(c) x(c+mu) + (1+gamma_mu) U_mu(c-mu)^+ x(c-mu))` -/
def wilson (g : Geo) (anis : Option ℝ) (U : Coords → Quad) (x : Coords → SpCol) (c : Coords) : SpCol :=
  ∑ mu : Dir, (weight anis mu : ℂ) • (spinMul (1 - γdir mu) (colMul (U c mu) (x (tshift g c mu 1))) +
    spinMul (1 + γdir mu) (colMul (U (tshift g c mu (-1)) mu)ᴴ (x (tshift g c mu (-1)))))

/-- the hermitian operator `gamma5 (k - wilson/2 + C) + i mu`, with `C` a local operator -/
def Qspec (g : Geo) (anis : Option ℝ) (U : Coords → Quad) (k : ℝ) (C : Coords → SpCol → SpCol) (mu : ℝ) (x : Coords → SpCol) (c : Coords) : SpCol :=
  spinMul (Γ 5) ((k : ℂ) • x c - (1 / 2 : ℂ) • wilson g anis U x c + C c (x c)) + ((mu : ℂ) * I) • x c

/-- the clover term as matrix in the spin, whose elements are colour matrices -/
def cloverBlock (Cl : Clov) : Fin 4 → Fin 4 → M3 :=
  ![![Cl 0, (Cl 1)ᴴ, 0, 0], ![Cl 1, -Cl 0, 0, 0], ![0, 0, Cl 2, (Cl 3)ᴴ], ![0, 0, Cl 3, -Cl 2]]

/-- action of a spin-colour matrix -/
def scMul (B : Fin 4 → Fin 4 → M3) (v : SpCol) : SpCol := fun i => ∑ j, B i j *ᵥ v j

/-- the form on the sites of a set -/
def dotS (s : Finset Coords) (y x : Coords → SpCol) : ℂ := ∑ c ∈ s, ∑ i, star (y c i) ⬝ᵥ x c i

/-! ### explicit gamma matrices -/

theorem g0 : γdir 0 = !![0, 0, -1, 0; 0, 0, 0, -1; -1, 0, 0, 0; 0, -1, 0, 0] := by
  rw [γdir_eq]; ext i j; fin_cases i <;> fin_cases j <;> simp [dir16, dense, table, initDirac, GaussianInt.toComplex, Complex.ext_iff]
theorem g1 : γdir 1 = !![0, 0, 0, -I; 0, 0, -I, 0; 0, I, 0, 0; I, 0, 0, 0] := by
  rw [γdir_eq]; ext i j; fin_cases i <;> fin_cases j <;> simp [dir16, dense, table, initDirac, GaussianInt.toComplex, Complex.ext_iff]
theorem g2 : γdir 2 = !![0, 0, 0, -1; 0, 0, 1, 0; 0, 1, 0, 0; -1, 0, 0, 0] := by
  rw [γdir_eq]; ext i j; fin_cases i <;> fin_cases j <;> simp [dir16, dense, table, initDirac, GaussianInt.toComplex, Complex.ext_iff]
theorem g3 : γdir 3 = !![0, 0, -I, 0; 0, 0, 0, I; I, 0, 0, 0; 0, -I, 0, 0] := by
  rw [γdir_eq]; ext i j; fin_cases i <;> fin_cases j <;> simp [dir16, dense, table, initDirac, GaussianInt.toComplex, Complex.ext_iff]
theorem g5 : Γ 5 = !![1, 0, 0, 0; 0, 1, 0, 0; 0, 0, -1, 0; 0, 0, 0, -1] := by
  rw [Γ5_eq]; ext i j; fin_cases i <;> fin_cases j <;> simp [dense, table, initDirac, GaussianInt.toComplex, Complex.ext_iff]

end

end Nissa.Wilson
