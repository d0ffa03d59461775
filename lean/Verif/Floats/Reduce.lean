import Verif.Floats.Float128
import Verif.Field.Reduce

/-! # Reductions of a field in floating point

Models `Field::reduce` (`/repo/src/base/field.hpp:907-918`), `Field::preciseReduce` (`/repo/src/base/field.hpp:920-945`) and `check_128_bit_prec`
(`/repo/src/base/debug.cpp:265-277`).  The reduction of the sites of a rank is `Reduce.reduceNoPreserve`; that among the ranks is made by
`MPI_Allreduce`, which may associate and order the numbers of the ranks in any way. -/

set_option linter.all false

namespace Nissa.Flt

noncomputable section

/-- `MPI_Allreduce`: `c` is one of the values obtained combining with `op` the values of the ranks in the list, each once, in that order, with any
association.  `/repo/src/base/field.hpp:904` -/
inductive AllRed {M : Type} (op : M → M → M) (v : Nat → M) : List Nat → M → Prop
  | one (r : Nat) : AllRed op v [r] (v r)
  | node {l1 l2 : List Nat} {a b : M} : AllRed op v l1 a → AllRed op v l2 b → AllRed op v (l1 ++ l2) (op a b)

/-- a value which `reduceNoPreserve` can give: ranks in any order, any association.  `/repo/src/base/field.hpp:858-905` -/
def IsReduced {M : Type} (op : M → M → M) (nranks : Nat) (sched : Nat → Nat → List Nat) (n : Nat) (field : Nat → Nat → M) (out : M) : Prop :=
  ∃ l : List Nat, l.Perm (List.range nranks) ∧ AllRed op (fun rk => Reduce.reduceNoPreserve op (sched rk) n (field rk)) l out

/-- `Field::reduce` of a field of `double`; `GlbReduceSumFunctor` is `res+=acc`.  `/repo/src/base/field.hpp:907-918` -/
def IsDoubleReduce {f : Fmt} (R : Rounding f) (nranks : Nat) (sched : Nat → Nat → List Nat) (n : Nat) (field : Nat → Nat → ℝ) (out : ℝ) : Prop :=
  IsReduced R.add nranks sched n field out

/-- `Field::preciseReduce`: the numbers are converted, reduced, and the result is taken with `roundDown`.  `/repo/src/base/field.hpp:920-945` -/
def IsPreciseReduce {f : Fmt} (R : Rounding f) (tiny : ℝ) (nranks : Nat) (sched : Nat → Nat → List Nat) (n : Nat) (field : Nat → Nat → ℝ) (out : ℝ) : Prop :=
  ∃ tmp : DD, IsReduced (DD.add R) nranks sched n (fun rk i => DD.ofDouble (field rk i)) tmp ∧ IsRoundDown f tiny tmp out

/-- the number checked at startup: `1+x-1`.  `/repo/src/base/debug.cpp:265-272` -/
def check128 {f : Fmt} (R : Rounding f) (x : ℝ) : DD := DD.add R (DD.add R (DD.ofDouble 1) (DD.ofDouble x)) (DD.ofDouble (-1))

end

end Nissa.Flt
