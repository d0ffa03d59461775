import Mathlib.Analysis.SpecialFunctions.Complex.Circle
import Mathlib.Analysis.SpecialFunctions.Trigonometric.Inverse
import Mathlib.Analysis.SpecialFunctions.Pow.Real
import Mathlib.LinearAlgebra.Matrix.Determinant.Basic
import Mathlib.LinearAlgebra.UnitaryGroup
import Mathlib.Data.Matrix.Mul
import Mathlib.Data.Fin.VecNotation

/-! # Colour matrices: determinant, inverse, projections on the group, subgroups, exponential

Models `/repo/src/new_types/su3_op.hpp` and `su3_op.cpp`: the algorithms built on the products and sums, which are shown
in `Su3Mem.lean` to act as the operations of matrices. Here a variable of type `su3` is a matrix of complex numbers.

Simplifications: exact real arithmetic (`double` is `ℝ`, with the mathematical functions `sqrt`, `cos`, ... exact); where
output and input may be the same variable the function takes a reading rule, see the single definitions; `NCOL` is 3.
-/

set_option linter.all false

namespace Nissa.Su3f

open Complex ComplexConjugate Matrix

abbrev M3 := Matrix (Fin 3) (Fin 3) ℂ

/-- `su3_real_det`, as written: products of real and imaginary parts.  `/repo/src/new_types/su3_op.hpp:575-595` -/
def su3_real_det (u : M3) : ℝ :=
  (u 0 2).im*((u 1 1).re*(u 2 0).im+(u 1 1).im*(u 2 0).re-(u 1 0).re*(u 2 1).im-(u 1 0).im*(u 2 1).re)+
  (u 0 2).re*((u 1 1).im*(u 2 0).im-(u 1 1).re*(u 2 0).re-(u 1 0).im*(u 2 1).im+(u 1 0).re*(u 2 1).re)+
  (u 0 1).im*((u 1 0).re*(u 2 2).im-(u 1 2).re*(u 2 0).im-(u 1 2).im*(u 2 0).re+(u 1 0).im*(u 2 2).re)+
  (u 0 1).re*((u 1 0).im*(u 2 2).im-(u 1 2).im*(u 2 0).im+(u 1 2).re*(u 2 0).re-(u 1 0).re*(u 2 2).re)+
  (u 0 0).im*((u 1 2).re*(u 2 1).im+(u 1 2).im*(u 2 1).re-(u 1 1).re*(u 2 2).im-(u 1 1).im*(u 2 2).re)+
  (u 0 0).re*((u 1 2).im*(u 2 1).im-(u 1 2).re*(u 2 1).re-(u 1 1).im*(u 2 2).im+(u 1 1).re*(u 2 2).re)

/-- `su3_det`.  `/repo/src/new_types/su3_op.hpp:550-573` (the kernel in memory is `Nissa.Su3.su3_det`) -/
def su3_det (u : M3) : ℂ :=
  u 0 0 * (u 1 1 * u 2 2 - u 1 2 * u 2 1) + u 0 1 * (u 1 2 * u 2 0 - u 1 0 * u 2 2) + u 0 2 * (u 1 0 * u 2 1 - u 1 1 * u 2 0)

/-- `complex_reciprocal`.  `/repo/src/new_types/complex.hpp:640-646` -/
noncomputable def complex_reciprocal (c : ℂ) : ℂ :=
  let cmod := c.re * c.re + c.im * c.im
  ⟨c.re / cmod, -c.im / cmod⟩

/-- `unsafe_su3_explicit_inverse`, `safe_su3_explicit_inverse`.  `/repo/src/new_types/su3_op.hpp:1256-1291` -/
noncomputable def su3_explicit_inverse (U : M3) : M3 :=
  let rec_det := complex_reciprocal (su3_det U)
  let invU : M3 := !![U 1 1 * U 2 2 - U 1 2 * U 2 1, U 0 2 * U 2 1 - U 0 1 * U 2 2, U 0 1 * U 1 2 - U 0 2 * U 1 1;
                      U 1 2 * U 2 0 - U 1 0 * U 2 2, U 0 0 * U 2 2 - U 0 2 * U 2 0, U 0 2 * U 1 0 - U 0 0 * U 1 2;
                      U 1 0 * U 2 1 - U 1 1 * U 2 0, U 0 1 * U 2 0 - U 0 0 * U 2 1, U 0 0 * U 1 1 - U 0 1 * U 1 0]
  Matrix.of fun i j => invU i j * rec_det

/-- `su3_build_third_row`: the two first rows are kept.  `/repo/src/new_types/su3_op.hpp:501-509` -/
def su3_build_third_row (o : M3) : M3 :=
  !![o 0 0, o 0 1, o 0 2;
     o 1 0, o 1 1, o 1 2;
     conj (o 0 1) * conj (o 1 2) - conj (o 0 2) * conj (o 1 1),
     conj (o 0 2) * conj (o 1 0) - conj (o 0 0) * conj (o 1 2),
     conj (o 0 0) * conj (o 1 1) - conj (o 0 1) * conj (o 1 0)]

/-- change of the element `i,j` of a matrix -/
def upd (o : M3) (i j : Fin 3) (z : ℂ) : M3 := fun k l => if k = i ∧ l = j then z else o k l

/-- the pairs `jc<ic` of the two nested loops `UNROLL_FOR_ALL_COLS(ic) UNROLL_FOR(jc,0,ic)`, grouped by `ic` -/
def below : Fin 3 → List (Fin 3) := fun ic => [0, 1, 2].filter (· < ic)

/-- body of the loops of `unsafe_su3_traceless_anti_hermitian_part` and `su3_anti_hermitian_part`; `rd o` is the input as
seen when the output holds `o`: `in` if they are distinct variables, `o` itself if the function is called in place. -/
noncomputable def antiHermLoop (rd : M3 → M3) (tr : ℝ) (o : M3) : M3 :=
  [0, 1, 2].foldl (fun o ic =>
    let o := upd o ic ic ⟨0, (rd o ic ic).im - tr⟩
    (below ic).foldl (fun o jc =>
      let re := ((rd o jc ic).re - (rd o ic jc).re) / 2
      let o := upd o jc ic ⟨re, (o jc ic).im⟩
      let o := upd o ic jc ⟨-re, (o ic jc).im⟩
      let im := ((rd o jc ic).im + (rd o ic jc).im) / 2
      let o := upd o jc ic ⟨(o jc ic).re, im⟩
      upd o ic jc ⟨(o ic jc).re, im⟩) o) o

/-- `unsafe_su3_traceless_anti_hermitian_part` called with distinct variables; `o` is the previous content of the output.
`/repo/src/new_types/su3_op.hpp:681-708` -/
noncomputable def su3_traceless_anti_hermitian_part (inp o : M3) : M3 :=
  antiHermLoop (fun _ => inp) (((inp 0 0).im + (inp 1 1).im + (inp 2 2).im) / 3) o

/-- the same called in place.  `/repo/src/new_types/su3_op.hpp:681-708` -/
noncomputable def su3_traceless_anti_hermitian_part_in_place (o : M3) : M3 :=
  antiHermLoop id (((o 0 0).im + (o 1 1).im + (o 2 2).im) / 3) o

/-- `su3_anti_hermitian_part`.  `/repo/src/new_types/su3_op.hpp:711-728` -/
noncomputable def su3_anti_hermitian_part (inp o : M3) : M3 := antiHermLoop (fun _ => inp) 0 o

/-- the same called in place.  `/repo/src/new_types/su3_op.hpp:711-728` -/
noncomputable def su3_anti_hermitian_part_in_place (o : M3) : M3 := antiHermLoop id 0 o

/-- body of `unsafe_su3_traceless_hermitian_part`.  `/repo/src/new_types/su3_op.hpp:731-753` -/
noncomputable def hermLoop (rd : M3 → M3) (tr : ℝ) (o : M3) : M3 :=
  [0, 1, 2].foldl (fun o ic =>
    let o := upd o ic ic ⟨(o ic ic).re, 0⟩
    let o := upd o ic ic ⟨(rd o ic ic).re - tr, (o ic ic).im⟩
    (below ic).foldl (fun o jc =>
      let re := ((rd o jc ic).re + (rd o ic jc).re) / 2
      let o := upd o jc ic ⟨re, (o jc ic).im⟩
      let o := upd o ic jc ⟨re, (o ic jc).im⟩
      let im := ((rd o jc ic).im - (rd o ic jc).im) / 2
      let o := upd o jc ic ⟨(o jc ic).re, im⟩
      upd o ic jc ⟨(o ic jc).re, -im⟩) o) o

/-- `unsafe_su3_traceless_hermitian_part`.  `/repo/src/new_types/su3_op.hpp:731-753` -/
noncomputable def su3_traceless_hermitian_part (inp o : M3) : M3 :=
  hermLoop (fun _ => inp) (((inp 0 0).re + (inp 1 1).re + (inp 2 2).re) / 3) o

/-- the same called in place.  `/repo/src/new_types/su3_op.hpp:731-753` -/
noncomputable def su3_traceless_hermitian_part_in_place (o : M3) : M3 :=
  hermLoop id (((o 0 0).re + (o 1 1).re + (o 2 2).re) / 3) o

/-! ### orthonormalisation -/

/-- `color_norm2`.  `/repo/src/new_types/su3_op.hpp:448-460` -/
def color_norm2 (c : Fin 3 → ℂ) : ℝ :=
  (c 0).re * (c 0).re + (c 0).im * (c 0).im + ((c 1).re * (c 1).re + (c 1).im * (c 1).im) +
    ((c 2).re * (c 2).re + (c 2).im * (c 2).im)

/-- `su3_norm2`.  `/repo/src/new_types/su3_op.hpp:1293-1302` -/
def su3_norm2 (U : M3) : ℝ := color_norm2 (U 0) + color_norm2 (U 1) + color_norm2 (U 2)

/-- `su3_unitarize_orthonormalizing`; the rows 0 and 1 of the output are written after all the reads of the corresponding
rows of the input, so that the function is the same called in place (row 0 of the input is read until it is itself
normalised).  `/repo/src/new_types/su3_op.hpp:1347-1393` -/
noncomputable def su3_unitarize_orthonormalizing (i : M3) : M3 :=
  let row0_norm2 := color_norm2 (i 0)
  let row10_sc_prod := i 1 0 * conj (i 0 0) + i 1 1 * conj (i 0 1) + i 1 2 * conj (i 0 2)
  let f := row10_sc_prod * ((1 / row0_norm2 : ℝ) : ℂ)
  let o1 : Fin 3 → ℂ := fun ic => i 1 ic - f * i 0 ic
  let row0_norm := 1 / Real.sqrt row0_norm2
  let row1_norm := 1 / Real.sqrt (color_norm2 o1)
  let r0 : Fin 3 → ℂ := fun ic => ⟨row0_norm * (i 0 ic).re, row0_norm * (i 0 ic).im⟩
  let r1 : Fin 3 → ℂ := fun ic => ⟨row1_norm * (o1 ic).re, row1_norm * (o1 ic).im⟩
  su3_build_third_row !![r0 0, r0 1, r0 2; r1 0, r1 1, r1 2; i 2 0, i 2 1, i 2 2]

/-- `su3_get_non_unitariness`.  `/repo/src/new_types/su3_op.hpp:3034-3054` -/
noncomputable def su3_get_non_unitariness (u : M3) : ℝ :=
  let sc (i j : Fin 3) : ℂ := conj (u i 0) * u j 0 + conj (u i 1) * u j 1 + conj (u i 2) * u j 2
  Real.sqrt ((color_norm2 (u 0) - 1)^2 + 2 * normSq (sc 0 1) + 2 * normSq (sc 0 2) +
    (color_norm2 (u 1) - 1)^2 + 2 * normSq (sc 1 2) + (color_norm2 (u 2) - 1)^2)

/-! ### subgroups -/

/-- `su3_sub_gr_indices`.  `/repo/src/new_types/su3_op.cpp:46` -/
def su3_sub_gr_indices : Fin 3 → Fin 3 × Fin 3 := ![(0, 1), (1, 2), (0, 2)]

/-- four real numbers, for `A+B i σ1+C i σ2+D i σ3` -/
structure Su2 where
  A : ℝ
  B : ℝ
  C : ℝ
  D : ℝ

/-- `su2_part_of_su3` (the returned number is not modelled).  `/repo/src/new_types/su3_op.hpp:600-626` -/
noncomputable def su2_part_of_su3 (inp : M3) (isub_gr : Fin 3) : Su2 :=
  let a := (su3_sub_gr_indices isub_gr).1
  let b := (su3_sub_gr_indices isub_gr).2
  let A := (inp a a).re + (inp b b).re
  let B := (inp a b).im + (inp b a).im
  let C := (inp a b).re - (inp b a).re
  let D := (inp a a).im - (inp b b).im
  let N := Real.sqrt (A*A+B*B+C*C+D*D)
  if N = 0 then ⟨1, B, C, D⟩ else
    let N := 1 / N
    ⟨A*N, B*N, C*N, D*N⟩

/-- `su2_inv`.  `/repo/src/new_types/su3_op.hpp:629-630` -/
def su2_inv (r : Su2) : Su2 := ⟨r.A, -r.B, -r.C, -r.D⟩

/-- `su2_get_overrelaxing`.  `/repo/src/new_types/su3_op.hpp:633-639` -/
def su2_get_overrelaxing (r : Su2) : Su2 := ⟨2*r.A*r.A-1, -2*r.A*r.B, -2*r.A*r.C, -2*r.A*r.D⟩

/-- `su2_prodassign_su3`, both versions: the two rows of the subgroup are replaced by their combinations.
`/repo/src/new_types/su3_op.hpp:642-669` -/
def su2_prodassign_su3 (x : Su2) (isub_gr : Fin 3) (inp : M3) : M3 :=
  let ic1 := (su3_sub_gr_indices isub_gr).1
  let ic2 := (su3_sub_gr_indices isub_gr).2
  let mod : Fin 2 → Fin 2 → ℂ := ![![⟨x.A, x.D⟩, ⟨x.C, x.B⟩], ![⟨-x.C, x.B⟩, ⟨x.A, -x.D⟩]]
  fun i ic =>
    if i = ic1 then mod 0 0 * inp ic1 ic + mod 0 1 * inp ic2 ic
    else if i = ic2 then mod 1 0 * inp ic1 ic + mod 1 1 * inp ic2 ic
    else inp i ic

/-- `su2_nonunitarity`.  `/repo/src/new_types/su3_op.hpp:672-673` -/
def su2_nonunitarity (x : Su2) : ℝ := x.A*x.A-2*x.A+1+x.B*x.B+x.C*x.C+x.D*x.D

/-- `su3_real_trace`.  `/repo/src/new_types/su3_op.hpp:537-547` -/
def su3_real_trace (u : M3) : ℝ := (u 0 0).re + (u 1 1).re + (u 2 2).re

/-- one subgroup of `su3_unitarize_maximal_trace_projecting_iteration_slow`: the product is computed again every time.
`/repo/src/new_types/su3_op.hpp:1466-1486` -/
noncomputable def maxTraceStepSlow (M : M3) (U : M3) (isub_gr : Fin 3) : M3 :=
  su2_prodassign_su3 (su2_inv (su2_part_of_su3 (U * Mᴴ) isub_gr)) isub_gr U

/-- `su3_unitarize_maximal_trace_projecting_iteration_slow`.  `/repo/src/new_types/su3_op.hpp:1466-1486` -/
noncomputable def maxTraceIterationSlow (U M : M3) : M3 := [0, 1, 2].foldl (maxTraceStepSlow M) U

/-- a change of the subgroup of both the link and the product -/
noncomputable def rotate2 (pick : Su2 → Su2) (s : M3 × M3) (isub_gr : Fin 3) : M3 × M3 :=
  let x := pick (su2_part_of_su3 s.2 isub_gr)
  (su2_prodassign_su3 x isub_gr s.1, su2_prodassign_su3 x isub_gr s.2)

/-- `su3_unitarize_maximal_trace_projecting_iteration`: the new link and the returned trace.
`/repo/src/new_types/su3_op.hpp:1488-1513` -/
noncomputable def maxTraceIteration (U M : M3) : M3 × ℝ :=
  let s := [0, 1, 2].foldl (rotate2 su2_inv) (U, U * Mᴴ)
  (s.1, su3_real_trace s.2)

/-- `su3_find_overrelaxed`.  `/repo/src/new_types/su3_op.cpp:137-165` -/
noncomputable def su3_find_overrelaxed (inp staple : M3) : ℕ → M3 × M3
  | 0 => (inp, inp * stapleᴴ)
  | n + 1 => [0, 1, 2].foldl (rotate2 su2_get_overrelaxing) (su3_find_overrelaxed inp staple n)

/-- the norms of the rotations of the first of the three passes, computed along: `rotating_norm` at each subgroup.
`/repo/src/new_types/su3_op.cpp:66-87` -/
noncomputable def rotatingNorm (s : M3 × M3) (isub_gr : Fin 3) : ℝ :=
  Real.sqrt (su2_nonunitarity (su2_inv (su2_part_of_su3 s.2 isub_gr)))

/-- the body of the `do` of `su3_unitarize_maximal_trace_projecting`: one pass of projection, two of overrelaxation.
Returns the new link and product and the three norms of the first pass.  `/repo/src/new_types/su3_op.cpp:64-88` -/
noncomputable def maxTraceSweep (s : M3 × M3) : (M3 × M3) × (ℝ × ℝ × ℝ) :=
  let n0 := rotatingNorm s 0
  let s := rotate2 su2_inv s 0
  let n1 := rotatingNorm s 1
  let s := rotate2 su2_inv s 1
  let n2 := rotatingNorm s 2
  let s := rotate2 su2_inv s 2
  let s := [0, 1, 2].foldl (rotate2 su2_get_overrelaxing) s
  let s := [0, 1, 2].foldl (rotate2 su2_get_overrelaxing) s
  (s, (n0, n1, n2))

/-- the `do...while` of `su3_unitarize_maximal_trace_projecting`: `none` when it crashes for too many iterations.
`reuni` is `su3_unitarize_explicitly_inverting`, used if the link is found not unitary beyond `1e-15`.  The argument `fuel`
bounds the iterations of the definition, it is taken above `niter_max` below.  `/repo/src/new_types/su3_op.cpp:60-114` -/
noncomputable def maxTraceLoop (reuni : M3 → M3) (M : M3) (precision : ℝ) (niter_max : ℕ) : ℕ → ℕ → M3 × M3 → Option M3
  | 0, _, _ => none
  | fuel + 1, iter, s =>
    let r := maxTraceSweep s
    let n0 := r.2.1
    let n1 := r.2.2.1
    let n2 := r.2.2.2
    let converged := 3 ≤ iter ∧ n0 < precision ∧ n1 < precision ∧ n2 < precision
    let iter := iter + 1
    let s := if n2 < Real.sqrt precision ∧ 1e-15 < su3_get_non_unitariness r.1.1 then
        (reuni r.1.1, reuni r.1.1 * Mᴴ) else r.1
    if niter_max < iter then none
    else open Classical in if converged then some s.1 else maxTraceLoop reuni M precision niter_max fuel iter s

/-- `su3_unitarize_maximal_trace_projecting`.  `/repo/src/new_types/su3_op.cpp:49-118` -/
noncomputable def su3_unitarize_maximal_trace_projecting (reuni : M3 → M3) (M : M3) (precision : ℝ) (niter_max : ℕ) :
    Option M3 :=
  maxTraceLoop reuni M precision niter_max (niter_max + 1) 0 (1, 1 * Mᴴ)

/-! ### series and iterations -/

/-- `unsafe_su3_taylor_exponentiate`: coefficient, power and sum after the orders up to `k+1`.
`/repo/src/new_types/su3_op.hpp:1328-1345` -/
noncomputable def taylorLoop (inp : M3) : ℕ → ℝ × M3 × M3
  | 0 => (1, inp, 1 + inp)
  | k + 1 =>
    let (coef, temp, out) := taylorLoop inp k
    let temp := temp * inp
    let coef := coef / (k + 2 : ℕ)
    (coef, temp, out + (coef : ℂ) • temp)

/-- `unsafe_su3_taylor_exponentiate`: the loop goes from 2 to `order`.  `/repo/src/new_types/su3_op.hpp:1328-1345` -/
noncomputable def su3_taylor_exponentiate (inp : M3) (order : ℕ) : M3 := (taylorLoop inp (order - 1)).2.2

/-- `su3_overrelax` before the final orthonormalisation: `t[k]` and the sum up to the order `k` (`k≥1`).
`/repo/src/new_types/su3_op.cpp:168-196` -/
noncomputable def overrelaxLoop (coeff : ℕ → ℝ) (f : M3) : ℕ → M3 × M3
  | 0 => (f, 1 + (coeff 1 : ℂ) • f)
  | k + 1 =>
    let (t, out) := overrelaxLoop coeff f k
    let t := t * f
    (t, out + (coeff (k + 2) : ℂ) • t)

/-- `su3_overrelax` with explicit coefficients (`ord ≥ 2`, otherwise the array of powers is overrun).
`/repo/src/new_types/su3_op.cpp:168-196` -/
noncomputable def su3_overrelax (inp : M3) (coeff : ℕ → ℝ) (ord : ℕ) : M3 :=
  su3_unitarize_orthonormalizing (overrelaxLoop coeff (inp - 1) (ord - 2)).2

/-- the coefficients of `su3_overrelax` with weight.  `/repo/src/new_types/su3_op.hpp:1399-1403` -/
noncomputable def overrelaxCoeff (w : ℝ) : ℕ → ℝ
  | 0 => 1
  | 1 => w
  | 2 => w*(w-1)/2
  | 3 => w*(w-1)*(w-2)/6
  | _ => w*(w-1)*(w-2)*(w-3)/24

/-- one turn of `unsafe_su3_sqrt`.  `/repo/src/new_types/su3_op.hpp:1304-1325` -/
noncomputable def sqrtStep (y x : M3) : M3 := x + (0.5 : ℂ) • (y * su3_explicit_inverse x - x)

/-- the loop of `unsafe_su3_sqrt`, cut after `fuel` turns (the code has no bound).
`/repo/src/new_types/su3_op.hpp:1304-1325` -/
noncomputable def sqrtLoop (y : M3) : ℕ → M3 → Option M3
  | 0, _ => none
  | fuel + 1, x =>
    let x := sqrtStep y x
    if 1e-15 < Real.sqrt (su3_norm2 (y - x * x)) then sqrtLoop y fuel x else some x

/-- `complex_pow`: the argument is that of `atan2`.  `/repo/src/new_types/complex.hpp:662-669` -/
noncomputable def complex_pow (base : ℂ) (e : ℝ) : ℂ :=
  let cmod := (base.re * base.re + base.im * base.im) ^ (e / 2)
  let anomaly := Complex.arg base * e
  ⟨cmod * Real.cos anomaly, cmod * Real.sin anomaly⟩

/-- one turn of `su3_unitarize_explicitly_inverting`: the average and the residue.
`/repo/src/new_types/su3_op.hpp:1418-1440` -/
noncomputable def invertingStep (t : M3) : M3 × ℝ :=
  let inv := su3_explicit_inverse t
  let gamma := Real.sqrt (su3_norm2 inv / su3_norm2 t)
  let new : M3 := Matrix.of fun ic jc =>
    ⟨0.5 * ((t ic jc).re * gamma + (inv jc ic).re / gamma), 0.5 * ((t ic jc).im * gamma - (inv jc ic).im / gamma)⟩
  (new, Real.sqrt (su3_norm2 (new - t)))

/-- the loop of `su3_unitarize_explicitly_inverting`, cut after `fuel` turns (the code has no bound).
`/repo/src/new_types/su3_op.hpp:1410-1447` -/
noncomputable def invertingLoop (tol : ℝ) : ℕ → M3 → Option M3
  | 0, _ => none
  | fuel + 1, t =>
    let r := invertingStep t
    if tol < r.2 then invertingLoop tol fuel r.1 else
      some (complex_pow (su3_det r.1) (-1.0 / 3) • r.1)

/-! ### Gell-Mann matrices -/

/-- `gell_mann_matr`.  `/repo/src/new_types/su3_op.cpp:11-44` -/
noncomputable def gell_mann_matr : Fin 8 → M3 := ![
  !![0, 1, 0; 1, 0, 0; 0, 0, 0],
  !![0, -I, 0; I, 0, 0; 0, 0, 0],
  !![1, 0, 0; 0, -1, 0; 0, 0, 0],
  !![0, 0, 1; 0, 0, 0; 1, 0, 0],
  !![0, 0, -I; 0, 0, 0; I, 0, 0],
  !![0, 0, 0; 0, 0, 1; 0, 1, 0],
  !![0, 0, 0; 0, 0, -I; 0, I, 0],
  !![((1 / Real.sqrt 3 : ℝ) : ℂ), 0, 0; 0, ((1 / Real.sqrt 3 : ℝ) : ℂ), 0; 0, 0, ((-2 / Real.sqrt 3 : ℝ) : ℂ)]]

/-! ### exponential -/

/-- `hermitian_exp_ingredients::prepareIngredients`: the three coefficients. `/repo/src/new_types/su3_op.hpp:2893-2993` -/
noncomputable def prepareIngredients (Q : M3) : ℂ × ℂ × ℂ :=
  let c0 := su3_real_det Q
  let Q2 := Q * Q
  let c1 := su3_real_trace Q2 / 2
  let c0_max := 2 * (c1 / 3) ^ (1.5 : ℝ)
  if c1 < 4e-3 then
    (⟨1-c0*c0/720, -c0*(1-c1*(1-c1/42)/20)/6⟩,
     ⟨c0*(1-c1*(1-3*c1/112)/15)/24, 1-c1*(1-c1*(1-c1/42)/20)/6-c0*c0/5040⟩,
     ⟨0.5*(-1+c1*(1-c1*(1-c1/56)/30)/12+c0*c0/20160), 0.5*(c0*(1-c1*(1-c1/48)/21)/60)⟩)
  else
    let sign : Bool := c0 < 0
    let c0 := if c0 < 0 then -c0 else c0
    let eps := (c0_max - c0) / c0_max
    let theta := if eps < 0 then 0 else
      if eps < 1e-3 then
        Real.sqrt (2*eps)*(1+(1.0/12+(3.0/160+(5.0/896+(35.0/18432+63.0/90112*eps)*eps)*eps)*eps)*eps)
      else Real.arccos (c0 / c0_max)
    let u := Real.sqrt (c1/3) * Real.cos (theta/3)
    let w := Real.sqrt c1 * Real.sin (theta/3)
    let u2 := u*u
    let w2 := w*w
    let u2mw2 := u2-w2
    let w2p3u2 := w2+3*u2
    let w2m3u2 := w2-3*u2
    let cu := Real.cos u
    let c2u := Real.cos (2*u)
    let su := Real.sin u
    let s2u := Real.sin (2*u)
    let cw := Real.cos w
    let xi0w := if |w| < 0.05 then
        let temp0 := w*w
        let temp1 := 1-temp0/42
        let temp2 := 1-temp0/20*temp1
        1-temp0/6*temp2
      else Real.sin w / w
    let h0 : ℂ := ⟨u2mw2*c2u+cu*8*u2*cw+2*su*u*w2p3u2*xi0w, u2mw2*s2u+ -su*8*u2*cw+cu*2*u*w2p3u2*xi0w⟩
    let h1 : ℂ := ⟨2*u*c2u+ -cu*2*u*cw+ -su*w2m3u2*xi0w, 2*u*s2u+su*2*u*Real.cos w+ -cu*w2m3u2*xi0w⟩
    let h2 : ℂ := ⟨c2u+ -cu*cw+ -3*su*u*xi0w, s2u+su*cw+ -cu*3*u*xi0w⟩
    let fact := 1/(9*u*u-w*w)
    let f0 : ℂ := h0 * (fact : ℂ)
    let f1 : ℂ := h1 * (fact : ℂ)
    let f2 : ℂ := h2 * (fact : ℂ)
    if sign then (⟨f0.re, -f0.im⟩, ⟨-f1.re, f1.im⟩, ⟨f2.re, -f2.im⟩) else (f0, f1, f2)

/-- `safe_hermitian_exact_i_exponentiate`.  `/repo/src/new_types/su3_op.hpp:2997-3019` -/
noncomputable def hermitian_exact_i_exponentiate (Q : M3) : M3 :=
  let f := prepareIngredients Q
  f.1 • (1 : M3) + f.2.1 • Q + f.2.2 • (Q * Q)

/-- `safe_anti_hermitian_exact_exponentiate`.  `/repo/src/new_types/su3_op.hpp:3021-3032` -/
noncomputable def anti_hermitian_exact_exponentiate (iQ : M3) : M3 := hermitian_exact_i_exponentiate ((-I) • iQ)

/-! ### order of the directions in files -/

/-- `quad_su3_nissa_to_ildg_reord` (the input is copied first, also in place).  `/repo/src/new_types/su3_op.hpp:202-213` -/
def quad_su3_nissa_to_ildg_reord {α : Type} (inp out : Fin 4 → α) : Fin 4 → α :=
  [0, 1, 2, 3].foldl (fun o (mu : Fin 4) => Function.update o ⟨(mu.val + 4 - 1) % 4, Nat.mod_lt _ (by norm_num)⟩ (inp mu)) out

/-- `quad_su3_ildg_to_nissa_reord`.  `/repo/src/new_types/su3_op.hpp:215-226` -/
def quad_su3_ildg_to_nissa_reord {α : Type} (inp out : Fin 4 → α) : Fin 4 → α :=
  [0, 1, 2, 3].foldl (fun o (mu : Fin 4) => Function.update o ⟨(mu.val + 1) % 4, Nat.mod_lt _ (by norm_num)⟩ (inp mu)) out

end Nissa.Su3f
