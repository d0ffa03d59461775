import Verif.Color.ComplexMem
import Mathlib.Data.Matrix.Mul
import Mathlib.LinearAlgebra.Matrix.Notation
import Mathlib.LinearAlgebra.Matrix.ConjTranspose
import Mathlib.LinearAlgebra.Matrix.Trace
import Mathlib.LinearAlgebra.Matrix.Determinant.Basic
import Mathlib.Tactic.FinCases

/-!
# The colour matrix kernels, with memory

Model of the part of `/repo/src/new_types/su3_op.hpp` which handles 3x3 complex matrices: every kernel is the sequence
of calls to the complex kernels of `ComplexMem.lean`, acting on the memory.

Simplifications: a matrix (`su3`) is 18 consecutive cells, row by row (the template arguments may also be views of a field
stored in another order: see `Field/Layout.lean`); a local variable of a function (`su3 d;`) is given an address as an
argument, in the theorems any address not overlapping the others.
-/

set_option linter.all false

namespace Nissa.Su3

open Nissa.Cplx

/-- address of the element `m[i][j]` of the matrix at `p` -/
def el (p : ℕ) (i j : Fin 3) : ℕ := p + 2 * (3 * i.val + j.val)

/-- `UNROLL_FOR_ALL_COLS(ic)`.  `/repo/src/new_types/su3.hpp:13-16` -/
def cols : List (Fin 3) := [0, 1, 2]

/-- two nested loops on the colours, the first being the outermost -/
def pairs : List (Fin 3 × Fin 3) := [(0,0),(0,1),(0,2),(1,0),(1,1),(1,2),(2,0),(2,1),(2,2)]

/-- execute `f` for all the pairs in order -/
def loop2 (f : Fin 3 → Fin 3 → Mem → Mem) (m : Mem) : Mem := pairs.foldl (fun m p => f p.1 p.2 m) m

/-- `su3_copy`.  `/repo/src/new_types/su3_op.hpp:136-155` -/
def su3_copy (a b : ℕ) : Mem → Mem := loop2 fun i j => complex_copy (el a i j) (el b i j)

/-- `su3_put_to_zero`.  `/repo/src/new_types/su3_op.hpp:47-63` -/
def su3_put_to_zero (a : ℕ) : Mem → Mem := loop2 fun i j => complex_put_to_zero (el a i j)

/-- `su3_put_to_id`.  `/repo/src/new_types/su3_op.hpp:91-100` -/
def su3_put_to_id (a : ℕ) (m : Mem) : Mem :=
  cols.foldl (fun m i => put m (el a i i) 1) (su3_put_to_zero a m)

/-- `unsafe_su3_hermitian`.  `/repo/src/new_types/su3_op.hpp:757-765` -/
def unsafe_su3_hermitian (a b : ℕ) : Mem → Mem := loop2 fun i j => complex_conj (el a i j) (el b j i)

/-- `safe_su3_hermitian`.  `/repo/src/new_types/su3_op.hpp:767-772` -/
def safe_su3_hermitian (tmp a b : ℕ) (m : Mem) : Mem := su3_copy a tmp (unsafe_su3_hermitian tmp b m)

/-- `unsafe_su3_transpose`.  `/repo/src/new_types/su3_op.hpp:775-780` -/
def unsafe_su3_transpose (a b : ℕ) : Mem → Mem := loop2 fun i j => complex_copy (el a i j) (el b j i)

/-- `safe_su3_transpose`.  `/repo/src/new_types/su3_op.hpp:782-787` -/
def safe_su3_transpose (tmp a b : ℕ) (m : Mem) : Mem := su3_copy a tmp (unsafe_su3_transpose tmp b m)

/-- `su3_summ`.  `/repo/src/new_types/su3_op.hpp:790-800` -/
def su3_summ (a b c : ℕ) : Mem → Mem := loop2 fun i j => complex_summ (el a i j) (el b i j) (el c i j)

/-- `su3_subt`.  `/repo/src/new_types/su3_op.hpp:841-851` -/
def su3_subt (a b c : ℕ) : Mem → Mem := loop2 fun i j => complex_subt (el a i j) (el b i j) (el c i j)

/-- `unsafe_su3_summ_su3_dag`.  `/repo/src/new_types/su3_op.hpp:802-813` -/
def unsafe_su3_summ_su3_dag (a b c : ℕ) : Mem → Mem :=
  loop2 fun i j => complex_summ_conj2 (el a i j) (el b i j) (el c j i)

/-- `su3_summassign_su3_dag`.  `/repo/src/new_types/su3_op.hpp:815-822` -/
def su3_summassign_su3_dag (a b : ℕ) : Mem → Mem := unsafe_su3_summ_su3_dag a a b

/-- `unsafe_su3_subt_su3_dag`.  `/repo/src/new_types/su3_op.hpp:870-875` -/
def unsafe_su3_subt_su3_dag (a b c : ℕ) : Mem → Mem :=
  loop2 fun i j => complex_subt_conj2 (el a i j) (el b i j) (el c j i)

/-- `unsafe_su3_prod_su3` with all the rows.  `/repo/src/new_types/su3_op.hpp:879-895` -/
def unsafe_su3_prod_su3 (a b c : ℕ) : Mem → Mem := loop2 fun i j m =>
  [1, 2].foldl (fun m k => complex_summ_the_prod (el a i j) (el b i k) (el c k j) m)
    (unsafe_complex_prod (el a i j) (el b i 0) (el c 0 j) m)

/-- `safe_su3_prod_su3`.  `/repo/src/new_types/su3_op.hpp:897-908` -/
def safe_su3_prod_su3 (tmp a b c : ℕ) (m : Mem) : Mem := su3_copy a tmp (unsafe_su3_prod_su3 tmp b c m)

/-- `su3_prodassign_su3`.  `/repo/src/new_types/su3_op.hpp:910-917` -/
def su3_prodassign_su3 (tmp a b : ℕ) : Mem → Mem := safe_su3_prod_su3 tmp a a b

/-- `su3_summ_the_prod_su3`.  `/repo/src/new_types/su3_op.hpp:920-932` -/
def su3_summ_the_prod_su3 (a b c : ℕ) : Mem → Mem := loop2 fun i j m =>
  cols.foldl (fun m k => complex_summ_the_prod (el a i j) (el b i k) (el c k j) m) m

/-- `su3_summ_the_prod_su3_dag`.  `/repo/src/new_types/su3_op.hpp:935-947` -/
def su3_summ_the_prod_su3_dag (a b c : ℕ) : Mem → Mem := loop2 fun i j m =>
  cols.foldl (fun m k => complex_summ_the_conj2_prod (el a i j) (el b i k) (el c j k) m) m

/-- `su3_summ_the_dag_prod_su3`, `su3_dag_summ_the_prod_su3`.  `/repo/src/new_types/su3_op.hpp:950-962,990-996` -/
def su3_summ_the_dag_prod_su3 (a b c : ℕ) : Mem → Mem := loop2 fun i j m =>
  cols.foldl (fun m k => complex_summ_the_conj1_prod (el a i j) (el b k i) (el c k j) m) m

/-- `unsafe_su3_dag_prod_su3`; the number of rows `nr_max` bounds both the row of the output and the summed index.
`/repo/src/new_types/su3_op.hpp:965-981` -/
def unsafe_su3_dag_prod_su3 (nr_max : ℕ) (a b c : ℕ) (m : Mem) : Mem :=
  (cols.filter (·.val < nr_max)).foldl (fun m i => cols.foldl (fun m j =>
    ([1, 2].filter (fun k : Fin 3 => k.val < nr_max)).foldl
      (fun m k => complex_summ_the_conj1_prod (el a i j) (el b k i) (el c k j) m)
      (unsafe_complex_conj1_prod (el a i j) (el b 0 i) (el c 0 j) m)) m) m

/-- `safe_su3_dag_prod_su3`.  `/repo/src/new_types/su3_op.hpp:983-988` -/
def safe_su3_dag_prod_su3 (tmp a b c : ℕ) (m : Mem) : Mem := su3_copy a tmp (unsafe_su3_dag_prod_su3 3 tmp b c m)

/-- `unsafe_su3_prod_su3_dag`.  `/repo/src/new_types/su3_op.hpp:999-1015` -/
def unsafe_su3_prod_su3_dag (a b c : ℕ) : Mem → Mem := loop2 fun i j m =>
  [1, 2].foldl (fun m k => complex_summ_the_conj2_prod (el a i j) (el b i k) (el c j k) m)
    (unsafe_complex_conj2_prod (el a i j) (el b i 0) (el c j 0) m)

/-- `safe_su3_prod_su3_dag`.  `/repo/src/new_types/su3_op.hpp:1017` -/
def safe_su3_prod_su3_dag (tmp a b c : ℕ) (m : Mem) : Mem := su3_copy a tmp (unsafe_su3_prod_su3_dag tmp b c m)

/-- `su3_subt_the_prod_su3_dag`.  `/repo/src/new_types/su3_op.hpp:1020-1030` -/
def su3_subt_the_prod_su3_dag (a b c : ℕ) : Mem → Mem := loop2 fun i j m =>
  cols.foldl (fun m k => complex_subt_the_conj2_prod (el a i j) (el b i k) (el c j k) m) m

/-- `unsafe_su3_dag_prod_su3_dag`.  `/repo/src/new_types/su3_op.hpp:1058-1074` -/
def unsafe_su3_dag_prod_su3_dag (a b c : ℕ) : Mem → Mem := loop2 fun i j m =>
  [1, 2].foldl (fun m k => complex_summ_the_conj_conj_prod (el a i j) (el b k i) (el c j k) m)
    (unsafe_complex_conj_conj_prod (el a i j) (el b 0 i) (el c j 0) m)

/-- `safe_su3_dag_prod_su3_dag`.  `/repo/src/new_types/su3_op.hpp:1076-1077` -/
def safe_su3_dag_prod_su3_dag (tmp a b c : ℕ) (m : Mem) : Mem := su3_copy a tmp (unsafe_su3_dag_prod_su3_dag tmp b c m)

/-- `su3_prod_double`.  `/repo/src/new_types/su3_op.hpp:1120-1129` -/
def su3_prod_double (r : ℝ) (a b : ℕ) : Mem → Mem := loop2 fun i j => complex_prod_double r (el a i j) (el b i j)

/-- `su3_prod_idouble`.  `/repo/src/new_types/su3_op.hpp:1194-1203` -/
def su3_prod_idouble (r : ℝ) (a b : ℕ) : Mem → Mem := loop2 fun i j => complex_prod_idouble r (el a i j) (el b i j)

/-- `su3_summ_the_prod_double`.  `/repo/src/new_types/su3_op.hpp:1226` -/
def su3_summ_the_prod_double (r : ℝ) (a b : ℕ) : Mem → Mem :=
  loop2 fun i j => complex_summ_the_prod_double r (el a i j) (el b i j)

/-- `su3_summ_the_prod_idouble`.  `/repo/src/new_types/su3_op.hpp:1214-1223` -/
def su3_summ_the_prod_idouble (r : ℝ) (a b : ℕ) : Mem → Mem :=
  loop2 fun i j => complex_summ_the_prod_idouble r (el a i j) (el b i j)

/-- `unsafe_su3_hermitian_prod_double`.  `/repo/src/new_types/su3_op.hpp:1139-1152` -/
def unsafe_su3_hermitian_prod_double (r : ℝ) (a b : ℕ) : Mem → Mem := loop2 fun i j m =>
  let m := put m (el a i j) (r * m (el b j i))
  put m (el a i j + 1) (-r * m (el b j i + 1))

/-- body of the inner loop of `safe_su3_hermitian_prod_double`.  `/repo/src/new_types/su3_op.hpp:1164-1173` -/
def hermPairStep (r : ℝ) (a b : ℕ) (i j : Fin 3) (m : Mem) : Mem :=
  let re := r * m (el b j i)
  let im := -r * m (el b j i + 1)
  let m := put m (el a j i) (r * m (el b i j))
  let m := put m (el a j i + 1) (-r * m (el b i j + 1))
  let m := put m (el a i j) re
  put m (el a i j + 1) im

/-- the diagonal of `safe_su3_hermitian_prod_double`.  `/repo/src/new_types/su3_op.hpp:1161-1162` -/
def hermDiagStep (r : ℝ) (a b : ℕ) (i : Fin 3) (m : Mem) : Mem :=
  let m := put m (el a i i) (r * m (el b i i))
  put m (el a i i + 1) (-r * m (el b i i + 1))

/-- `safe_su3_hermitian_prod_double`: no local copy, pairs of elements are exchanged.
`/repo/src/new_types/su3_op.hpp:1154-1175` -/
def safe_su3_hermitian_prod_double (r : ℝ) (a b : ℕ) (m : Mem) : Mem :=
  cols.foldl (fun m i => (cols.filter (i < ·)).foldl (fun m j => hermPairStep r a b i j m) (hermDiagStep r a b i m)) m

/-- `su3_trace`.  `/repo/src/new_types/su3_op.hpp:524-534` -/
def su3_trace (tr p : ℕ) (m : Mem) : Mem :=
  [1, 2].foldl (fun m i => complex_summ tr tr (el p i i) m) (complex_copy tr (el p 0 0) m)

/-- `su3_real_trace`.  `/repo/src/new_types/su3_op.hpp:537-547` -/
def su3_real_trace (p : ℕ) (m : Mem) : ℝ :=
  [1, 2].foldl (fun a i => a + m (el p i i)) (m (el p 0 0))

/-- `trace_su3_prod_su3`.  `/repo/src/new_types/su3_op.hpp:1049-1055` -/
def trace_su3_prod_su3 (t a b : ℕ) (m : Mem) : Mem :=
  pairs.foldl (fun m p => complex_summ_the_prod t (el a p.1 p.2) (el b p.2 p.1) m) (complex_put_to_zero t m)

/-- `real_part_of_trace_su3_prod_su3_dag`.  `/repo/src/new_types/su3_op.hpp:1033-1046` -/
def real_part_of_trace_su3_prod_su3_dag (a b : ℕ) (m : Mem) : ℝ :=
  pairs.foldl (fun t p => t + real_part_of_complex_scalar_prod (el a p.1 p.2) (el b p.1 p.2) m) 0

/-- `su3_det`, with the local variable `t`.  `/repo/src/new_types/su3_op.hpp:550-573` -/
def su3_det (t d u : ℕ) (m : Mem) : Mem :=
  let m := unsafe_complex_prod t (el u 1 1) (el u 2 2) m
  let m := complex_subt_the_prod t (el u 1 2) (el u 2 1) m
  let m := unsafe_complex_prod d (el u 0 0) t m
  let m := unsafe_complex_prod t (el u 1 2) (el u 2 0) m
  let m := complex_subt_the_prod t (el u 1 0) (el u 2 2) m
  let m := complex_summ_the_prod d (el u 0 1) t m
  let m := unsafe_complex_prod t (el u 1 0) (el u 2 1) m
  let m := complex_subt_the_prod t (el u 1 1) (el u 2 0) m
  complex_summ_the_prod d (el u 0 2) t m

/-! ### products with vectors -/

/-- address of the element `c[i]` of the colour vector at `p` -/
def elv (p : ℕ) (i : Fin 3) : ℕ := p + 2 * i.val

/-- `color_copy`.  `/repo/src/new_types/su3_op.hpp:136-145` -/
def color_copy (a b : ℕ) (m : Mem) : Mem := cols.foldl (fun m i => complex_copy (elv a i) (elv b i) m) m

/-- `unsafe_su3_prod_color`.  `/repo/src/new_types/su3_op.hpp:1539-1553` -/
def unsafe_su3_prod_color (a b c : ℕ) (m : Mem) : Mem := cols.foldl (fun m i =>
  [1, 2].foldl (fun m j => complex_summ_the_prod (elv a i) (el b i j) (elv c j) m)
    (unsafe_complex_prod (elv a i) (el b i 0) (elv c 0) m)) m

/-- `safe_su3_prod_color`.  `/repo/src/new_types/su3_op.hpp:1558` -/
def safe_su3_prod_color (tmp a b c : ℕ) (m : Mem) : Mem := color_copy a tmp (unsafe_su3_prod_color tmp b c m)

/-- `su3_summ_the_prod_color`.  `/repo/src/new_types/su3_op.hpp:1560-1571` -/
def su3_summ_the_prod_color (a b c : ℕ) (m : Mem) : Mem := cols.foldl (fun m i =>
  cols.foldl (fun m j => complex_summ_the_prod (elv a i) (el b i j) (elv c j) m) m) m

/-- `su3_subt_the_prod_color`.  `/repo/src/new_types/su3_op.hpp:1574-1585` -/
def su3_subt_the_prod_color (a b c : ℕ) (m : Mem) : Mem := cols.foldl (fun m i =>
  cols.foldl (fun m j => complex_subt_the_prod (elv a i) (el b i j) (elv c j) m) m) m

/-- `unsafe_su3_dag_prod_color`.  `/repo/src/new_types/su3_op.hpp:1588-1602` -/
def unsafe_su3_dag_prod_color (a b c : ℕ) (m : Mem) : Mem := cols.foldl (fun m i =>
  [1, 2].foldl (fun m j => complex_summ_the_conj1_prod (elv a i) (el b j i) (elv c j) m)
    (unsafe_complex_conj1_prod (elv a i) (el b 0 i) (elv c 0) m)) m

/-- `safe_su3_dag_prod_color`.  `/repo/src/new_types/su3_op.hpp:1605-1606` -/
def safe_su3_dag_prod_color (tmp a b c : ℕ) (m : Mem) : Mem := color_copy a tmp (unsafe_su3_dag_prod_color tmp b c m)

/-- `su3_dag_summ_the_prod_color`.  `/repo/src/new_types/su3_op.hpp:1608-1619` -/
def su3_dag_summ_the_prod_color (a b c : ℕ) (m : Mem) : Mem := cols.foldl (fun m i =>
  cols.foldl (fun m j => complex_summ_the_conj1_prod (elv a i) (el b j i) (elv c j) m) m) m

/-- `su3_dag_subt_the_prod_color`.  `/repo/src/new_types/su3_op.hpp:1635-1646` -/
def su3_dag_subt_the_prod_color (a b c : ℕ) (m : Mem) : Mem := cols.foldl (fun m i =>
  cols.foldl (fun m j => complex_subt_the_conj1_prod (elv a i) (el b j i) (elv c j) m) m) m

/-- `unsafe_color_prod_su3`.  `/repo/src/new_types/su3_op.hpp:1664-1678` -/
def unsafe_color_prod_su3 (a b c : ℕ) (m : Mem) : Mem := cols.foldl (fun m i =>
  [1, 2].foldl (fun m j => complex_summ_the_prod (elv a i) (elv b j) (el c j i) m)
    (unsafe_complex_prod (elv a i) (elv b 0) (el c 0 i) m)) m

/-- `unsafe_color_prod_su3_dag`.  `/repo/src/new_types/su3_op.hpp:1694-1708` -/
def unsafe_color_prod_su3_dag (a b c : ℕ) (m : Mem) : Mem := cols.foldl (fun m i =>
  [1, 2].foldl (fun m j => complex_summ_the_conj2_prod (elv a i) (elv b j) (el c i j) m)
    (unsafe_complex_conj2_prod (elv a i) (elv b 0) (el c i 0) m)) m

/-! ### specification -/

/-- the matrix held at an address -/
def mat (m : Mem) (p : ℕ) : Matrix (Fin 3) (Fin 3) ℂ := Matrix.of fun i j => val m (el p i j)

/-- the vector held at an address -/
def vec (m : Mem) (p : ℕ) : Fin 3 → ℂ := fun i => val m (elv p i)

/-- `n` cells at `p` and `k` cells at `q` do not overlap -/
def Sep (p n q k : ℕ) : Prop := p + n ≤ q ∨ q + k ≤ p

/-- matrices not overlapping -/
def MApart (p q : ℕ) : Prop := Sep p 18 q 18

/-- the same matrix, or not overlapping -/
def MSame (p q : ℕ) : Prop := p = q ∨ MApart p q

/-- nothing is changed outside the `n` cells at `a` -/
def Only (a n : ℕ) (m m' : Mem) : Prop := ∀ q, (q < a ∨ a + n ≤ q) → m' q = m q

/-- the kernel computes `f` of its matrix arguments into the output, if the output does not overlap the inputs -/
def MDoesApart (op : ℕ → ℕ → ℕ → Mem → Mem)
    (f : Matrix (Fin 3) (Fin 3) ℂ → Matrix (Fin 3) (Fin 3) ℂ → Matrix (Fin 3) (Fin 3) ℂ → Matrix (Fin 3) (Fin 3) ℂ) : Prop :=
  ∀ a b c m, MApart a b → MApart a c → mat (op a b c m) a = f (mat m a) (mat m b) (mat m c) ∧ Only a 18 m (op a b c m)

/-- the same, with any of the arguments coinciding -/
def MDoes (op : ℕ → ℕ → ℕ → Mem → Mem)
    (f : Matrix (Fin 3) (Fin 3) ℂ → Matrix (Fin 3) (Fin 3) ℂ → Matrix (Fin 3) (Fin 3) ℂ → Matrix (Fin 3) (Fin 3) ℂ) : Prop :=
  ∀ a b c m, MSame a b → MSame a c → mat (op a b c m) a = f (mat m a) (mat m b) (mat m c) ∧ Only a 18 m (op a b c m)

/-- the same, for a kernel using a local matrix: any of the three arguments may coincide, even partially overlap;
the local matrix overlaps none -/
def MDoesSafe (op : ℕ → ℕ → ℕ → ℕ → Mem → Mem)
    (f : Matrix (Fin 3) (Fin 3) ℂ → Matrix (Fin 3) (Fin 3) ℂ → Matrix (Fin 3) (Fin 3) ℂ) : Prop :=
  ∀ tmp a b c m, MApart tmp a → MApart tmp b → MApart tmp c →
    mat (op tmp a b c m) a = f (mat m b) (mat m c) ∧
    ∀ q, (q < a ∨ a + 18 ≤ q) → (q < tmp ∨ tmp + 18 ≤ q) → (op tmp a b c m) q = m q

end Nissa.Su3
