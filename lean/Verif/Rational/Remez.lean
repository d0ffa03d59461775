import Mathlib.Algebra.Order.Field.Basic
import Mathlib.Algebra.Order.Group.Abs
import Mathlib.Algebra.Order.Field.Rat
import Mathlib.Logic.Function.Basic

/-!
# The rational-approximation finder: linear algebra

Model of `src/operations/remez/remez_algorithm.cpp` and `remez_algorithm.hpp`.  The numbers
(`float_high_prec_t`: GMP floats or pairs of doubles) are taken in an arbitrary linearly ordered
field, that is, rounding is not modelled.  A `std::vector` is a function of its index; a CRASH is
`none`.
-/

set_option linter.all false

namespace Nissa.Remez

/-- `for(int i=0;i<n;i++) s=f(i,s)`. -/
def up {S : Type} : Nat → (Nat → S → S) → S → S
  | 0, _, s => s
  | n + 1, f, s => f n (up n f s)

/-- `for(int i=n-1;i>=0;i--) s=f(i,s)`. -/
def down {S : Type} : Nat → (Nat → S → S) → S → S
  | 0, _, s => s
  | n + 1, f, s => down n f (f n s)

variable {K : Type} [Field K] [LinearOrder K]

/-- `v[i]=a`. -/
def put (v : Nat → K) (i : Nat) (a : K) : Nat → K := fun l => if l = i then a else v l

/-- `A[i*n+j]=a` on a square array stored by rows (the entry `i*n+j` is written `A i j`). -/
def put2 (A : Nat → Nat → K) (i j : Nat) (a : K) : Nat → Nat → K :=
  fun k l => if k = i ∧ l = j then a else A k l

/-- Largest absolute value of a row: remez_algorithm.cpp:143-149. -/
def rowNorm (n : Nat) (A : Nat → Nat → K) (i : Nat) : K :=
  up n (fun j r => if r < |A i j| then |A i j| else r) 0

/-- The inverse norm of each row, kept in `x`, CRASH "num row norm" on a null row:
remez_algorithm.cpp:139-152. -/
def rowScales (n : Nat) (A : Nat → Nat → K) : Option (Nat → K) :=
  up n (fun i s => s.bind fun x =>
    if rowNorm n A i = 0 then none else some (put x i (1 / rowNorm n A i))) (some fun _ => 0)

/-- Search of the pivot of column `k`: the pair (`big`, `ipiv`), remez_algorithm.cpp:157-170. -/
def findPivot (n : Nat) (A : Nat → Nat → K) (exch : Nat → Nat) (x : Nat → K) (k : Nat) : K × Nat :=
  up (n - k) (fun t s =>
    if s.1 < |A (exch (k + t)) k| * x (exch (k + t)) then
      (|A (exch (k + t)) k| * x (exch (k + t)), k + t) else s) (0, 0)

/-- `std::swap(exch[i],exch[j])`: remez_algorithm.cpp:173. -/
def swapAt (e : Nat → Nat) (i j : Nat) : Nat → Nat :=
  fun l => if l = i then e j else if l = j then e i else e l

/-- The innermost subtraction: remez_algorithm.cpp:180-181. -/
def elimEntry (exch : Nat → Nat) (k i j : Nat) (A : Nat → Nat → K) : Nat → Nat → K :=
  put2 A (exch i) j (A (exch i) j - A (exch i) k * A (exch k) j)

/-- One row of the elimination: remez_algorithm.cpp:179-181. -/
def elimRow (n : Nat) (exch : Nat → Nat) (pivot : K) (k i : Nat) (A : Nat → Nat → K) :
    Nat → Nat → K :=
  up (n - (k + 1)) (fun t A => elimEntry exch k i (k + 1 + t) A)
    (put2 A (exch i) k (A (exch i) k / pivot))

/-- The elimination of column `k`: remez_algorithm.cpp:175-182. -/
def elim (n : Nat) (exch : Nat → Nat) (k : Nat) (A : Nat → Nat → K) : Nat → Nat → K :=
  up (n - (k + 1)) (fun t B => elimRow n exch (A (exch k) k) k (k + 1 + t) B) A

/-- One step of the loop over the rows, CRASH "null big" when no pivot is found:
remez_algorithm.cpp:155-183.  (`big.get_d()==0.0` is read as `big==0`.) -/
def luStep (n : Nat) (x : Nat → K) (k : Nat) (s : (Nat → Nat → K) × (Nat → Nat)) :
    Option ((Nat → Nat → K) × (Nat → Nat)) :=
  if (findPivot n s.1 s.2 x k).1 = 0 then none
  else some (elim n (swapAt s.2 (findPivot n s.1 s.2 x k).2 k) k s.1,
    swapAt s.2 (findPivot n s.1 s.2 x k).2 k)

/-- The triangular decomposition: remez_algorithm.cpp:154-183. -/
def lu (n : Nat) (A : Nat → Nat → K) (x : Nat → K) : Option ((Nat → Nat → K) × (Nat → Nat)) :=
  up (n - 1) (fun k s => s.bind (luStep n x k)) (some (A, fun i => i))

/-- Forward substitution: remez_algorithm.cpp:186-191. -/
def forward (n : Nat) (A : Nat → Nat → K) (exch : Nat → Nat) (b x : Nat → K) : Nat → K :=
  up n (fun i x => up i (fun j x => put x i (x i - A (exch i) j * x j)) (put x i (b (exch i)))) x

/-- Update of one component of the backward substitution: remez_algorithm.cpp:196-197. -/
def backOne (n : Nat) (A : Nat → Nat → K) (exch : Nat → Nat) (i : Nat) (x : Nat → K) : Nat → K :=
  let y := up (n - (i + 1))
    (fun t x => put x i (x i - A (exch i) (i + 1 + t) * x (i + 1 + t))) x
  put y i (y i / A (exch i) i)

/-- Backward substitution: remez_algorithm.cpp:193-198. -/
def backward (n : Nat) (A : Nat → Nat → K) (exch : Nat → Nat) (x : Nat → K) : Nat → K :=
  down n (fun i x => backOne n A exch i x) x

/-- `linear_system_solve`: remez_algorithm.cpp:89-213.  `none` is a CRASH; otherwise the final content
of `x` (`A` is overwritten and not looked at again by the callers). -/
def linear_system_solve (n : Nat) (A : Nat → Nat → K) (b : Nat → K) : Option (Nat → K) :=
  match rowScales n A with
  | none => none
  | some x =>
    match lu n A x with
    | none => none
    | some (B, exch) =>
      if B (exch (n - 1)) (n - 1) = 0 then none
      else some (backward n B exch (forward n B exch b x))

end Nissa.Remez
