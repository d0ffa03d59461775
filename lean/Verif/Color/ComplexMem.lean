import Mathlib.Analysis.Complex.Basic
import Mathlib.Analysis.SpecialFunctions.Sqrt
import Mathlib.Tactic.Ring
import Mathlib.Tactic.FieldSimp
import Mathlib.Tactic.LinearCombination

/-!
# The complex kernels, with memory

Model of `/repo/src/new_types/complex.hpp`.  A `complex` is an array of two numbers: here two consecutive cells of a
memory, addressed by the first one, and every kernel is the sequence of loads and stores of the code, so that the
effect of output and input arrays being the same is visible.  Numbers are exact reals.

Simplification: real arguments passed by reference (`const double&`) are taken by value.
-/

set_option linter.all false

namespace Nissa.Cplx

/-- memory: one real per cell -/
abbrev Mem := ℕ → ℝ

/-- store -/
def put (m : Mem) (p : ℕ) (v : ℝ) : Mem := fun q => if q = p then v else m q

/-! ### kernels with one output and one input -/

/-- `/repo/src/new_types/complex.hpp:58-66` -/
def complex_copy (a b : ℕ) (m : Mem) : Mem :=
  let m := put m a (m b)
  put m (a+1) (m (b+1))

/-- `/repo/src/new_types/complex.hpp:69-76` -/
def complex_put_to_real (a : ℕ) (r : ℝ) (m : Mem) : Mem :=
  let m := put m a r
  put m (a+1) 0

/-- `/repo/src/new_types/complex.hpp:78-82` -/
def complex_put_to_imag (a : ℕ) (r : ℝ) (m : Mem) : Mem :=
  let m := put m a 0
  put m (a+1) r

/-- `/repo/src/new_types/complex.hpp:85-90` -/
def complex_put_to_zero (a : ℕ) (m : Mem) : Mem := complex_put_to_real a 0 m

/-- `/repo/src/new_types/complex.hpp:93-101` -/
def complex_conj (a b : ℕ) (m : Mem) : Mem :=
  let m := put m a (m b)
  put m (a+1) (-m (b+1))

/-- `/repo/src/new_types/complex.hpp:104-108` -/
def complex_minus_conj (a b : ℕ) (m : Mem) : Mem :=
  let m := put m a (-m b)
  put m (a+1) (m (b+1))

/-- `/repo/src/new_types/complex.hpp:238-247` -/
def complex_prod_double (r : ℝ) (a b : ℕ) (m : Mem) : Mem :=
  let m := put m a (m b * r)
  put m (a+1) (m (b+1) * r)

/-- `/repo/src/new_types/complex.hpp:257-269` -/
def complex_prod_idouble (r : ℝ) (a b : ℕ) (m : Mem) : Mem :=
  let d := -m (b+1) * r
  let m := put m (a+1) (m b * r)
  put m a d

/-- `/repo/src/new_types/complex.hpp:274-284` -/
def complex_summ_the_prod_double (r : ℝ) (a b : ℕ) (m : Mem) : Mem :=
  let t := m b * r
  let m := put m (a+1) (m (a+1) + m (b+1) * r)
  put m a (m a + t)

/-- `/repo/src/new_types/complex.hpp:286-296` -/
def complex_subt_the_prod_double (r : ℝ) (a b : ℕ) (m : Mem) : Mem :=
  let t := m b * r
  let m := put m (a+1) (m (a+1) - m (b+1) * r)
  put m a (m a - t)

/-- `/repo/src/new_types/complex.hpp:299-310` -/
def complex_summ_the_prod_idouble (r : ℝ) (a b : ℕ) (m : Mem) : Mem :=
  let t := m (b+1) * r
  let m := put m (a+1) (m (a+1) + m b * r)
  put m a (m a - t)

/-- `/repo/src/new_types/complex.hpp:313-324` -/
def complex_subt_the_prod_idouble (r : ℝ) (a b : ℕ) (m : Mem) : Mem :=
  let t := m (b+1) * r
  let m := put m (a+1) (m (a+1) - m b * r)
  put m a (m a + t)

/-- `/repo/src/new_types/complex.hpp:578-583` -/
def safe_complex_prod_i (a b : ℕ) (m : Mem) : Mem :=
  let tmp := m b
  let m := put m a (-m (b+1))
  put m (a+1) tmp

/-- `/repo/src/new_types/complex.hpp:588-593` -/
def safe_complex_prod_minus_i (a b : ℕ) (m : Mem) : Mem :=
  let tmp := m b
  let m := put m a (m (b+1))
  put m (a+1) (-tmp)

/-- `/repo/src/new_types/complex.hpp:640-646` -/
noncomputable def complex_reciprocal (a b : ℕ) (m : Mem) : Mem :=
  let cmod := m b * m b + m (b+1) * m (b+1)
  let m := put m a (m b / cmod)
  put m (a+1) (-m (b+1) / cmod)

/-- `/repo/src/new_types/complex.hpp:649-660`; a division by zero gives no number -/
noncomputable def complex_sqrt (a b : ℕ) (m : Mem) : Option Mem :=
  let cmod := √(m b * m b + m (b+1) * m (b+1))
  if cmod = 0 then none else
  let cost := m b / cmod
  let sinth := √(0.5 * (1 - cost))
  let costh := √(0.5 * (1 + cost))
  let cmod := √cmod
  let m := if 0 ≤ m (b+1) then put m a (cmod * costh) else put m a (-cmod * costh)
  some (put m (a+1) (cmod * sinth))

/-! ### kernels with one output and two inputs -/

/-- `/repo/src/new_types/complex.hpp:111-121` -/
def complex_summ (a b c : ℕ) (m : Mem) : Mem :=
  let m := put m a (m b + m c)
  put m (a+1) (m (b+1) + m (c+1))

/-- `/repo/src/new_types/complex.hpp:124-134` -/
def complex_isumm (a b c : ℕ) (m : Mem) : Mem :=
  let m := put m a (m b - m (c+1))
  put m (a+1) (m (b+1) + m c)

/-- `/repo/src/new_types/complex.hpp:137-144` -/
def complex_isummassign (a b : ℕ) (m : Mem) : Mem := complex_isumm a a b m

/-- `/repo/src/new_types/complex.hpp:146-156` -/
def complex_summ_conj2 (a b c : ℕ) (m : Mem) : Mem :=
  let m := put m a (m b + m c)
  put m (a+1) (m (b+1) - m (c+1))

/-- `/repo/src/new_types/complex.hpp:158-159` -/
def complex_summ_conj1 (a b c : ℕ) (m : Mem) : Mem := complex_summ_conj2 a c b m

/-- `/repo/src/new_types/complex.hpp:162-172` -/
def complex_subt (a b c : ℕ) (m : Mem) : Mem :=
  let m := put m a (m b - m c)
  put m (a+1) (m (b+1) - m (c+1))

/-- `/repo/src/new_types/complex.hpp:175-185` -/
def complex_isubt (a b c : ℕ) (m : Mem) : Mem :=
  let m := put m a (m b + m (c+1))
  put m (a+1) (m (b+1) - m c)

/-- `/repo/src/new_types/complex.hpp:188-195` -/
def complex_isubtassign (a b : ℕ) (m : Mem) : Mem := complex_isubt a a b m

/-- `/repo/src/new_types/complex.hpp:197-201` -/
def complex_subt_conj2 (a b c : ℕ) (m : Mem) : Mem :=
  let m := put m a (m b - m c)
  put m (a+1) (m (b+1) + m (c+1))

/-- `/repo/src/new_types/complex.hpp:202-206` -/
def complex_subt_conj1 (a b c : ℕ) (m : Mem) : Mem :=
  let m := put m a (m b - m c)
  put m (a+1) (-m (b+1) - m (c+1))

/-- `/repo/src/new_types/complex.hpp:327-339` -/
def complex_linear_comb (cb cc : ℝ) (a b c : ℕ) (m : Mem) : Mem :=
  let m := put m a (m b * cb + m c * cc)
  put m (a+1) (m (b+1) * cb + m (c+1) * cc)

/-- `/repo/src/new_types/complex.hpp:342-352` -/
def complex_summ_the_prod (a b c : ℕ) (m : Mem) : Mem :=
  let t := m b * m c - m (b+1) * m (c+1)
  let m := put m (a+1) (m (a+1) + (m b * m (c+1) + m (b+1) * m c))
  put m a (m a + t)

/-- `/repo/src/new_types/complex.hpp:355-367` -/
def complex_subt_the_prod (a b c : ℕ) (m : Mem) : Mem :=
  let t := m b * m c - m (b+1) * m (c+1)
  let m := put m (a+1) (m (a+1) - (m b * m (c+1) + m (b+1) * m c))
  put m a (m a - t)

/-- `/repo/src/new_types/complex.hpp:370-382` -/
def complex_summ_the_conj2_prod (a b c : ℕ) (m : Mem) : Mem :=
  let t := m b * m c + m (b+1) * m (c+1)
  let m := put m (a+1) (m (a+1) + (-m b * m (c+1) + m (b+1) * m c))
  put m a (m a + t)

/-- `/repo/src/new_types/complex.hpp:385-394` -/
def complex_summ_the_conj1_prod (a b c : ℕ) (m : Mem) : Mem := complex_summ_the_conj2_prod a c b m

/-- `/repo/src/new_types/complex.hpp:396-407` -/
def complex_summ_the_conj_conj_prod (a b c : ℕ) (m : Mem) : Mem :=
  let t := m b * m c - m (b+1) * m (c+1)
  let m := put m (a+1) (m (a+1) + (-m b * m (c+1) - m (b+1) * m c))
  put m a (m a + t)

/-- `/repo/src/new_types/complex.hpp:410-423` -/
def complex_subt_the_conj2_prod (a b c : ℕ) (m : Mem) : Mem :=
  let t := m b * m c + m (b+1) * m (c+1)
  let m := put m (a+1) (m (a+1) - (-m b * m (c+1) + m (b+1) * m c))
  put m a (m a - t)

/-- `/repo/src/new_types/complex.hpp:425-434` -/
def complex_subt_the_conj1_prod (a b c : ℕ) (m : Mem) : Mem := complex_subt_the_conj2_prod a c b m

/-- `/repo/src/new_types/complex.hpp:436-441` -/
def complex_subt_the_conj_conj_prod (a b c : ℕ) (m : Mem) : Mem :=
  let t := m b * m c - m (b+1) * m (c+1)
  let m := put m (a+1) (m (a+1) - (-m b * m (c+1) - m (b+1) * m c))
  put m a (m a - t)

/-- `/repo/src/new_types/complex.hpp:444-454` -/
def unsafe_complex_prod (a b c : ℕ) (m : Mem) : Mem :=
  let m := put m a (m b * m c - m (b+1) * m (c+1))
  put m (a+1) (m b * m (c+1) + m (b+1) * m c)

/-- `/repo/src/new_types/complex.hpp:457-461` -/
def unsafe_complex_prod_minus (a b c : ℕ) (m : Mem) : Mem :=
  let m := put m a (-(m b * m c - m (b+1) * m (c+1)))
  put m (a+1) (-(m b * m (c+1) + m (b+1) * m c))

/-- `/repo/src/new_types/complex.hpp:464-474` -/
def unsafe_complex_conj2_prod (a b c : ℕ) (m : Mem) : Mem :=
  let m := put m a (m b * m c + m (b+1) * m (c+1))
  put m (a+1) (-m b * m (c+1) + m (b+1) * m c)

/-- `/repo/src/new_types/complex.hpp:477-481` -/
def unsafe_complex_conj2_prod_minus (a b c : ℕ) (m : Mem) : Mem :=
  let m := put m a (-(m b * m c + m (b+1) * m (c+1)))
  put m (a+1) (-(-m b * m (c+1) + m (b+1) * m c))

/-- `/repo/src/new_types/complex.hpp:484-491` -/
def unsafe_complex_conj1_prod (a b c : ℕ) (m : Mem) : Mem := unsafe_complex_conj2_prod a c b m

/-- `/repo/src/new_types/complex.hpp:493-494` -/
def unsafe_complex_conj1_prod_minus (a b c : ℕ) (m : Mem) : Mem := unsafe_complex_conj2_prod_minus a c b m

/-- `/repo/src/new_types/complex.hpp:497-507` -/
def unsafe_complex_conj_conj_prod (a b c : ℕ) (m : Mem) : Mem :=
  let m := put m a (m b * m c - m (b+1) * m (c+1))
  put m (a+1) (-m b * m (c+1) - m (b+1) * m c)

/-- `/repo/src/new_types/complex.hpp:510-514` -/
def unsafe_complex_conj_conj_prod_minus (a b c : ℕ) (m : Mem) : Mem :=
  let m := put m a (-m b * m c + m (b+1) * m (c+1))
  put m (a+1) (m b * m (c+1) + m (b+1) * m c)

/-- `/repo/src/new_types/complex.hpp:517-529` -/
def safe_complex_prod (a b c : ℕ) (m : Mem) : Mem :=
  let tmp := m b * m c - m (b+1) * m (c+1)
  let m := put m (a+1) (m b * m (c+1) + m (b+1) * m c)
  put m a tmp

/-- `/repo/src/new_types/complex.hpp:531-538` -/
def complex_prodassign (a b : ℕ) (m : Mem) : Mem := safe_complex_prod a a b m

/-- `/repo/src/new_types/complex.hpp:541-546` -/
def safe_complex_prod_minus (a b c : ℕ) (m : Mem) : Mem :=
  let tmp := -(m b * m c - m (b+1) * m (c+1))
  let m := put m (a+1) (-(m b * m (c+1) + m (b+1) * m c))
  put m a tmp

/-- `/repo/src/new_types/complex.hpp:549-561` -/
def safe_complex_conj2_prod (a b c : ℕ) (m : Mem) : Mem :=
  let tmp := m b * m c + m (b+1) * m (c+1)
  let m := put m (a+1) (-m b * m (c+1) + m (b+1) * m c)
  put m a tmp

/-- `/repo/src/new_types/complex.hpp:564-569` -/
def safe_complex_conj2_prod_minus (a b c : ℕ) (m : Mem) : Mem :=
  let tmp := -(m b * m c + m (b+1) * m (c+1))
  let m := put m (a+1) (-(-m b * m (c+1) + m (b+1) * m c))
  put m a tmp

/-- `/repo/src/new_types/complex.hpp:572-573` -/
def safe_complex_conj1_prod (a b c : ℕ) (m : Mem) : Mem := safe_complex_conj2_prod a c b m

/-- `/repo/src/new_types/complex.hpp:574-575` -/
def safe_complex_conj1_prod_minus (a b c : ℕ) (m : Mem) : Mem := safe_complex_conj2_prod_minus a c b m

/-- `/repo/src/new_types/complex.hpp:596-600` -/
def complex_summ_the_prod_i (a b c : ℕ) (m : Mem) : Mem :=
  let m := put m (a+1) (m (a+1) + (m b * m c - m (b+1) * m (c+1)))
  put m a (m a - (m b * m (c+1) + m (b+1) * m c))

/-- `/repo/src/new_types/complex.hpp:601-605` -/
def complex_subt_the_prod_i (a b c : ℕ) (m : Mem) : Mem :=
  let m := put m (a+1) (m (a+1) - (m b * m c - m (b+1) * m (c+1)))
  put m a (m a + (m b * m (c+1) + m (b+1) * m c))

/-- `/repo/src/new_types/complex.hpp:606-610` -/
def complex_summ_the_conj2_prod_i (a b c : ℕ) (m : Mem) : Mem :=
  let m := put m (a+1) (m (a+1) + (m b * m c + m (b+1) * m (c+1)))
  put m a (m a - (-m b * m (c+1) + m (b+1) * m c))

/-- `/repo/src/new_types/complex.hpp:611-612`: calls the version without the imaginary unit -/
def complex_summ_the_conj1_prod_i (a b c : ℕ) (m : Mem) : Mem := complex_summ_the_conj2_prod a c b m

/-- `/repo/src/new_types/complex.hpp:613-617` -/
def complex_summ_the_conj_conj_prod_i (a b c : ℕ) (m : Mem) : Mem :=
  let m := put m (a+1) (m (a+1) + (m b * m c - m (b+1) * m (c+1)))
  put m a (m a - (-m b * m (c+1) - m (b+1) * m c))

/-- `/repo/src/new_types/complex.hpp:618-622` -/
def complex_subt_the_conj2_prod_i (a b c : ℕ) (m : Mem) : Mem :=
  let m := put m (a+1) (m (a+1) - (m b * m c + m (b+1) * m (c+1)))
  put m a (m a + (-m b * m (c+1) + m (b+1) * m c))

/-- `/repo/src/new_types/complex.hpp:623-624`: calls the version without the imaginary unit -/
def complex_subt_the_conj1_prod_i (a b c : ℕ) (m : Mem) : Mem := complex_subt_the_conj2_prod a c b m

/-- `/repo/src/new_types/complex.hpp:625-629` -/
def complex_subt_the_conj_conj_prod_i (a b c : ℕ) (m : Mem) : Mem :=
  let m := put m (a+1) (m (a+1) - (m b * m c - m (b+1) * m (c+1)))
  put m a (m a + (-m b * m (c+1) - m (b+1) * m c))

/-- `/repo/src/new_types/complex.hpp:36-37` -/
def real_part_of_complex_prod (a b : ℕ) (m : Mem) : ℝ := m a * m b - m (a+1) * m (b+1)

/-- `/repo/src/new_types/complex.hpp:40-47` -/
def real_part_of_complex_scalar_prod (a b : ℕ) (m : Mem) : ℝ := m a * m b + m (a+1) * m (b+1)

/-- `/repo/src/new_types/complex.hpp:631-637` -/
def complex_norm2 (c : ℕ) (m : Mem) : ℝ := m c * m c + m (c+1) * m (c+1)

/-! ### specification -/

/-- the complex number held at an address -/
def val (m : Mem) (p : ℕ) : ℂ := ⟨m p, m (p+1)⟩

/-- two complex variables are the same or do not overlap -/
def Same_or_apart (a b : ℕ) : Prop := a = b ∨ (a + 1 < b ∨ b + 1 < a)

/-- two complex variables do not overlap -/
def Apart (a b : ℕ) : Prop := a + 1 < b ∨ b + 1 < a

/-- nothing is changed outside the complex variable at `a` -/
def OnlyAt (a : ℕ) (m m' : Mem) : Prop := ∀ q, q ≠ a → q ≠ a + 1 → m' q = m q

/-- the kernel stores at `a` the function `f` of the old content of `a` and of `b`, and changes nothing else,
even when `a` and `b` are the same variable -/
def Does2 (op : ℕ → ℕ → Mem → Mem) (f : ℂ → ℂ → ℂ) : Prop :=
  ∀ a b m, Same_or_apart a b → val (op a b m) a = f (val m a) (val m b) ∧ OnlyAt a m (op a b m)

/-- the same with two inputs, whichever of the three variables coincide -/
def Does3 (op : ℕ → ℕ → ℕ → Mem → Mem) (f : ℂ → ℂ → ℂ → ℂ) : Prop :=
  ∀ a b c m, Same_or_apart a b → Same_or_apart a c →
    val (op a b c m) a = f (val m a) (val m b) (val m c) ∧ OnlyAt a m (op a b c m)

/-- the same, but only if the output is neither of the inputs -/
def Does3Apart (op : ℕ → ℕ → ℕ → Mem → Mem) (f : ℂ → ℂ → ℂ → ℂ) : Prop :=
  ∀ a b c m, Apart a b → Apart a c →
    val (op a b c m) a = f (val m a) (val m b) (val m c) ∧ OnlyAt a m (op a b c m)

end Nissa.Cplx
