import Verif.Floats.Format
import Mathlib.Data.Fin.VecNotation

/-! # Double-double numbers

Models `/repo/src/new_types/float_128.hpp:29-275` (`Float128`) and the elementary operations of `/repo/src/new_types/float_256.cpp:63-145`.
The arithmetic of `double` is that of `Rounding binary64`: each operation gives a nearest number of the format.  Overflow, infinities and
not-a-numbers are not modelled; the compiler is supposed not to change the order of the operations. -/

set_option linter.all false

namespace Nissa.Flt

noncomputable section

variable {f : Fmt} (R : Rounding f)

/-- floating point sum -/
def Rounding.add (a b : ℝ) : ℝ := R.rnd (a + b)
/-- floating point difference -/
def Rounding.sub (a b : ℝ) : ℝ := R.rnd (a - b)
/-- floating point product -/
def Rounding.mul (a b : ℝ) : ℝ := R.rnd (a * b)
/-- floating point ratio -/
def Rounding.div (a b : ℝ) : ℝ := R.rnd (a / b)

/-- `Float128`: the two parts `data[0]` and `data[1]`.  `/repo/src/new_types/float_128.hpp:29-53` -/
structure DD where
  hi : ℝ
  lo : ℝ

/-- the number meant -/
def DD.val (a : DD) : ℝ := a.hi + a.lo

/-- a `double` as a `Float128`, the second argument of the constructor being zero.  `/repo/src/new_types/float_128.hpp:48-53` -/
def DD.ofDouble (a : ℝ) : DD := ⟨a, 0⟩

/-- `operator+`.  `/repo/src/new_types/float_128.hpp:56-69` -/
def DD.add (a b : DD) : DD :=
  let t1 := R.add a.hi b.hi
  let e := R.sub t1 a.hi
  let t2 := R.add (R.add (R.add (R.sub b.hi e) (R.sub a.hi (R.sub t1 e))) a.lo) b.lo
  let t3 := R.add t1 t2
  ⟨t3, R.sub t2 (R.sub t3 t1)⟩

/-- the constant `split`.  `/repo/src/new_types/float_128.hpp:95` -/
def splitConst : ℝ := 134217729

/-- `operator*`.  `/repo/src/new_types/float_128.hpp:90-117` -/
def DD.mul (a b : DD) : DD :=
  let cona := R.mul a.hi splitConst
  let conb := R.mul b.hi splitConst
  let a1 := R.sub cona (R.sub cona a.hi)
  let b1 := R.sub conb (R.sub conb b.hi)
  let a2 := R.sub a.hi a1
  let b2 := R.sub b.hi b1
  let c11 := R.mul a.hi b.hi
  let c21 := R.add (R.mul a2 b2) (R.add (R.mul a2 b1) (R.add (R.mul a1 b2) (R.sub (R.mul a1 b1) c11)))
  let c2 := R.add (R.mul a.hi b.lo) (R.mul a.lo b.hi)
  let t1 := R.add c11 c2
  let e := R.sub t1 c11
  let t2 := R.add (R.add (R.mul a.lo b.lo) (R.add (R.sub c2 e) (R.sub c11 (R.sub t1 e)))) c21
  let t3 := R.add t1 t2
  ⟨t3, R.sub t2 (R.sub t3 t1)⟩

/-- unary minus.  `/repo/src/new_types/float_128.hpp:137-144` -/
def DD.neg (a : DD) : DD := ⟨-a.hi, -a.lo⟩

/-- `operator-`.  `/repo/src/new_types/float_128.hpp:153-158` -/
def DD.sub (a b : DD) : DD := DD.add R a b.neg

/-- `operator==`.  `/repo/src/new_types/float_128.hpp:203-208` -/
def DD.eq (a b : DD) : Prop := a.hi = b.hi ∧ a.lo = b.lo

/-- `operator<`.  `/repo/src/new_types/float_128.hpp:210-224` -/
def DD.lt (a b : DD) : Prop := if a.hi = b.hi then a.lo < b.lo else a.hi < b.hi

/-- `operator<=`.  `/repo/src/new_types/float_128.hpp:210-225` -/
def DD.le (a b : DD) : Prop := if a.hi = b.hi then a.lo ≤ b.lo else a.hi ≤ b.hi

/-- `Float128::sum`.  `/repo/src/new_types/float_128.hpp:236-248` -/
def DD.sum2 (a b : ℝ) : DD :=
  let t1 := R.add a b
  let e := R.sub t1 a
  let t2 := R.add (R.sub b e) (R.sub a (R.sub t1 e))
  let t3 := R.add t1 t2
  ⟨t3, R.sub t2 (R.sub t3 t1)⟩

/-- `Float128::prod`.  `/repo/src/new_types/float_128.hpp:250-272` -/
def DD.prod2 (a b : ℝ) : DD :=
  let cona := R.mul a splitConst
  let conb := R.mul b splitConst
  let a1 := R.sub cona (R.sub cona a)
  let b1 := R.sub conb (R.sub conb b)
  let a2 := R.sub a a1
  let b2 := R.sub b b1
  let c11 := R.mul a b
  let c21 := R.add (R.mul a2 b2) (R.add (R.mul a2 b1) (R.add (R.mul a1 b2) (R.sub (R.mul a1 b1) c11)))
  let t3 := R.add c11 c21
  ⟨t3, R.sub c21 (R.sub t3 c11)⟩

/-- `std::nextafter(x,y)`: the next number of the format after `x` in the direction of `y`.  The C++ library function. -/
def IsNextAfter (f : Fmt) (x y z : ℝ) : Prop :=
  (x = y ∧ z = y) ∨ (x < y ∧ IsLeast {t | t ∈ f.F ∧ x < t} z) ∨ (y < x ∧ IsGreatest {t | t ∈ f.F ∧ t < x} z)

/-- `roundDown`: `z` is what is returned (`tiny` is the number `1e-300`).  `/repo/src/new_types/float_128.hpp:274-282` -/
def IsRoundDown (f : Fmt) (tiny : ℝ) (a : DD) (z : ℝ) : Prop := if a.lo ≥ 0 then z = a.hi else IsNextAfter f a.hi (-tiny) z

/-- `roundUp`.  `/repo/src/new_types/float_128.hpp:284-292` -/
def IsRoundUp (f : Fmt) (tiny : ℝ) (a : DD) (z : ℝ) : Prop := if a.lo ≤ 0 then z = a.hi else IsNextAfter f a.hi tiny z

/-- `quick_two_summ`.  `/repo/src/new_types/float_256.cpp:63-67` -/
def quick_two_summ (a b : ℝ) : ℝ × ℝ :=
  let s := R.add a b
  (s, R.sub b (R.sub s a))

/-- `two_summ`.  `/repo/src/new_types/float_256.cpp:69-74` -/
def two_summ (a b : ℝ) : ℝ × ℝ :=
  let s := R.add a b
  let v := R.sub s a
  (s, R.add (R.sub a (R.sub s v)) (R.sub b v))

/-- `split`.  `/repo/src/new_types/float_256.cpp:121-129` -/
def split (a : ℝ) : ℝ × ℝ :=
  let t := R.mul splitConst a
  let a_hi := R.sub t (R.sub t a)
  (a_hi, R.sub a a_hi)

/-- `two_prod`.  `/repo/src/new_types/float_256.cpp:131-142` -/
def two_prod (a b : ℝ) : ℝ × ℝ :=
  let p := R.mul a b
  let A := split R a
  let B := split R b
  (p, R.add (R.add (R.add (R.sub (R.mul A.1 B.1) p) (R.mul A.1 B.2)) (R.mul A.2 B.1)) (R.mul A.2 B.2))

/-- `three_summ`.  `/repo/src/new_types/float_256.cpp:76-85` -/
def three_summ (x y z : ℝ) : ℝ × ℝ × ℝ :=
  let t := two_summ R x y
  let p := two_summ R z t.1
  let q := two_summ R t.2 p.2
  (p.1, q.1, q.2)

/-- `three_summ2`.  `/repo/src/new_types/float_256.cpp:89-97` -/
def three_summ2 (x y c : ℝ) : ℝ × ℝ :=
  let t := two_summ R x y
  let p := two_summ R c t.1
  (p.1, R.add t.2 p.2)

open Classical in
/-- `quick_three_accum`: the number returned and the new values of the two accumulators.  `/repo/src/new_types/float_256.cpp:101-120` -/
def quick_three_accum (a b c : ℝ) : ℝ × ℝ × ℝ :=
  let p := two_summ R b c
  let q := two_summ R a p.1
  let s := q.1
  let a := q.2
  let b := p.2
  if a ≠ 0 ∧ b ≠ 0 then (s, a, b)
  else if ¬ b ≠ 0 then (0, s, a)
  else (0, s, b)

/-- the first part of `float_256_summ_double`, before the renormalisation.  `/repo/src/new_types/float_256.cpp:227-236` -/
def summ_double_parts (a : Fin 4 → ℝ) (b : ℝ) : Fin 5 → ℝ :=
  let p0 := two_summ R (a 0) b
  let p1 := two_summ R (a 1) p0.2
  let p2 := two_summ R (a 2) p1.2
  let p3 := two_summ R (a 3) p2.2
  ![p0.1, p1.1, p2.1, p3.1, p3.2]

end

end Nissa.Flt
