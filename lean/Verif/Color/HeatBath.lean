/-
Model of the heat bath of a link. Source: /repo/src/base/random.cpp:485-540 (su3_find_heatbath),
/repo/src/new_types/su3_op.hpp:600-626 (number returned by su2_part_of_su3).
Simplifications: `double` is `ℝ`; the generator is the list of the numbers it would return for the interval (0,1) (random.cpp:164: the number
returned for (min,max) is `u*(max-min)+min`, `none` when the list is over: the loop of acceptance has no bound in the code).
-/
import Verif.Color.PropsSu3Sub
import Mathlib.Analysis.SpecialFunctions.Log.Basic
import Mathlib.Analysis.SpecialFunctions.Trigonometric.Basic

set_option linter.all false

namespace Nissa.Su3f
open Complex ComplexConjugate Matrix

/-- number returned by `su2_part_of_su3`: the inverse of the module, or 1 if it is zero.  su3_op.hpp:613-625 -/
noncomputable def su2_part_mod (inp : M3) (isub_gr : Fin 3) : ℝ :=
  let a := (su3_sub_gr_indices isub_gr).1
  let b := (su3_sub_gr_indices isub_gr).2
  let A := (inp a a).re + (inp b b).re
  let B := (inp a b).im + (inp b a).im
  let C := (inp a b).re - (inp b a).re
  let D := (inp a a).im - (inp b b).im
  let N := Real.sqrt (A*A+B*B+C*C+D*D)
  if N = 0 then 1 else 1 / N

/-- `rnd_get_unif(gen,min,max)` given the number for the unit interval.  random.cpp:164-191 -/
def unif (u min max : ℝ) : ℝ := u * (max - min) + min

/-- `omega_f` before it is inverted.  random.cpp:507 -/
noncomputable def hbOmega (beta : ℝ) (prod : M3) (isub_gr : Fin 3) : ℝ := beta / (3 * su2_part_mod prod isub_gr)

/-- `a0` proposed.  random.cpp:508-516 -/
noncomputable def hbA0 (omega u : ℝ) : ℝ :=
  let z_norm := Real.exp (-2 * omega)
  let z_temp := (z_norm - 1) * unif u 0 1 + 1
  1 + 1 / omega * Real.log z_temp

/-- `z_f`.  random.cpp:517 -/
noncomputable def hbZ (a0 : ℝ) : ℝ := 1 - a0 * a0

/-- the condition to try again, `temp_f>0`.  random.cpp:518-520 -/
def hbRetry (z_f u : ℝ) : Prop := (unif u 0 1) ^ 2 - z_f > 0

open Classical in
/-- the `do ... while`: the accepted `a0` and the numbers left.  random.cpp:512-520 -/
noncomputable def hbLoop (omega : ℝ) : List ℝ → Option (ℝ × List ℝ)
  | u1 :: u2 :: rest => if hbRetry (hbZ (hbA0 omega u1)) u2 then hbLoop omega rest else some (hbA0 omega u1, rest)
  | _ => none

/-- the SU(2) matrix `a`.  random.cpp:522-531 -/
noncomputable def hbA (a0 u3 u4 : ℝ) : Su2 :=
  let x_rat := Real.sqrt (hbZ a0)
  let fi := unif u3 0 (2 * Real.pi)
  let cteta := unif u4 (-1) 1
  let steta := Real.sqrt (1 - cteta * cteta)
  ⟨a0, steta * Real.cos fi * x_rat, steta * Real.sin fi * x_rat, cteta * x_rat⟩

/-- the product of `a` and of the inverse of `r`.  random.cpp:533-536 -/
def hbX (a r : Su2) : Su2 :=
  ⟨a.A * r.A + a.B * r.B + a.C * r.C + a.D * r.D,
   r.A * a.B - a.A * r.B + a.C * r.D - r.C * a.D,
   r.A * a.C - a.A * r.C + a.D * r.B - r.D * a.B,
   r.A * a.D - a.A * r.D + a.B * r.C - r.B * a.C⟩

/-- one subgroup: link, product, numbers left.  random.cpp:500-539 -/
noncomputable def hbStep (beta : ℝ) (s : M3 × M3) (isub_gr : Fin 3) (draws : List ℝ) : Option ((M3 × M3) × List ℝ) :=
  match hbLoop (hbOmega beta s.2 isub_gr) draws with
  | some (a0, u3 :: u4 :: rest) =>
    let x := hbX (hbA a0 u3 u4) (su2_part_of_su3 s.2 isub_gr)
    some ((su2_prodassign_su3 x isub_gr s.1, su2_prodassign_su3 x isub_gr s.2), rest)
  | _ => none

/-- the loop over the subgroups of one hit, then over the hits.  random.cpp:496-498 -/
noncomputable def hbSteps (beta : ℝ) : List (Fin 3) → M3 × M3 → List ℝ → Option ((M3 × M3) × List ℝ)
  | [], s, d => some (s, d)
  | g :: gs, s, d =>
    match hbStep beta s g d with
    | some (s', d') => hbSteps beta gs s' d'
    | none => none

/-- `su3_find_heatbath`.  random.cpp:485-540 -/
noncomputable def su3_find_heatbath (inp staple : M3) (beta : ℝ) (nhb_hits : ℕ) (draws : List ℝ) : Option (M3 × List ℝ) :=
  match hbSteps beta ((List.replicate nhb_hits [0, 1, 2]).flatten) (inp, inp * stapleᴴ) draws with
  | some (s, d) => some (s.1, d)
  | none => none

end Nissa.Su3f
