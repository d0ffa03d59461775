/-
Model of the recursive determinant: /repo/src/routines/math_routines.cpp:98-154 (non Eigen branch), over any commutative ring.
-/
import Mathlib.LinearAlgebra.Matrix.Determinant.Basic
set_option linter.all false

namespace Nissa.Det

/-- `determinant`, math_routines.cpp:98-129. `m` is the pointer to the current row: element [i*N+j] is `m (i*N+j)`, `s` the array of the
columns in use, of which the first `n` are significant. n=0 falls in the default case. -/
def determinant {R : Type} [CommRing R] (N : Nat) : Nat → (Nat → R) → (Nat → Nat) → R
  | 1, m, s => m (s 0)
  | 2, m, s => m (s 0) * m (N + s 1) - m (s 1) * m (N + s 0)
  | 0, _, _ => 0
  | n + 3, m, s =>
    (List.range (n + 3)).foldl (fun d p =>
      let l : Nat → Nat := fun i => if i < p then s i else s (i + 1)
      let inDet := determinant N (n + 2) (fun k => m (N + k)) l
      if p % 2 = 1 then d - m (s p) * inDet else d + m (s p) * inDet) 0

/-- matrix_determinant, math_routines.cpp:149-152 -/
def matrixDeterminant {R : Type} [CommRing R] (m : Nat → R) (n : Nat) : R := determinant n n m (fun i => i)

theorem foldl_sign {R : Type} [CommRing R] (g : Nat → R) (n : Nat) :
    (List.range n).foldl (fun d p => if p % 2 = 1 then d - g p else d + g p) 0 = ∑ p ∈ Finset.range n, (-1) ^ p * g p := by
  induction n with
  | zero => rfl
  | succ n ih =>
    rw [List.range_succ, List.foldl_append, ih, Finset.sum_range_succ]
    simp only [List.foldl_cons, List.foldl_nil]
    split
    · rename_i h
      have : Odd n := Nat.odd_iff.2 h
      rw [this.neg_one_pow]; ring
    · rename_i h
      have : Even n := Nat.even_iff.2 (by omega)
      rw [this.neg_one_pow]; ring

theorem determinant_eq {R : Type} [CommRing R] (N : Nat) : ∀ (n : Nat) (m : Nat → R) (s : Nat → Nat), 0 < n →
    determinant N n m s = Matrix.det (Matrix.of (fun i j : Fin n => m (i.val * N + s j.val))) := by
  intro n
  induction n using Nat.strong_induction_on with
  | _ n ih =>
    intro m s hn
    match n, ih with
    | 1, _ => rw [determinant, Matrix.det_fin_one]; simp
    | 2, _ => rw [determinant, Matrix.det_fin_two]; simp
    | n + 3, ih =>
      rw [determinant, foldl_sign (fun p => m (s p) * determinant N (n + 2) (fun k => m (N + k)) (fun i => if i < p then s i else s (i + 1))),
        Matrix.det_succ_row_zero, Finset.sum_range]
      refine Finset.sum_congr rfl (fun p _ => ?_)
      rw [ih (n + 2) (by omega) _ _ (by omega), mul_assoc]
      congr 1
      simp only [Matrix.of_apply, Fin.val_zero, Nat.zero_mul, Nat.zero_add]
      congr 1
      congr 1
      ext i j
      simp only [Matrix.of_apply, Matrix.submatrix_apply, Fin.val_succ]
      congr 1
      have : (p.succAbove j).val = if j.val < p.val then j.val else j.val + 1 := by
        unfold Fin.succAbove
        simp only [Fin.lt_def, Fin.val_castSucc]
        split <;> simp
      rw [this]
      split <;> ring

/-! ### C27 -/

/-- C27: for matrices of any size over any commutative ring, the routine returns the determinant (sum over the permutations with sign) of
the matrix stored row by row -/
theorem C27_determinant {R : Type} [CommRing R] (n : Nat) (hn : 0 < n) (m : Nat → R) :
    matrixDeterminant m n = ∑ σ : Equiv.Perm (Fin n), Equiv.Perm.sign σ • ∏ i : Fin n, m ((σ i).val * n + i.val) := by
  unfold matrixDeterminant
  rw [determinant_eq n n m _ hn, Matrix.det_apply]
  rfl

/-- C27: e.g. product of matrices -/
theorem C27_determinant_mul {R : Type} [CommRing R] (n : Nat) (hn : 0 < n) (a b : Nat → R) :
    matrixDeterminant (fun k => ∑ l ∈ Finset.range n, a (k / n * n + l) * b (l * n + k % n)) n = matrixDeterminant a n * matrixDeterminant b n := by
  unfold matrixDeterminant
  rw [determinant_eq n n _ _ hn, determinant_eq n n _ _ hn, determinant_eq n n _ _ hn, ← Matrix.det_mul]
  congr 1
  ext i j
  simp only [Matrix.of_apply, Matrix.mul_apply]
  rw [Finset.sum_range]
  refine Finset.sum_congr rfl (fun l _ => ?_)
  have h1 : (i.val * n + j.val) / n = i.val := by
    rw [Nat.mul_comm, Nat.mul_add_div hn, Nat.div_eq_of_lt j.isLt, Nat.add_zero]
  have h2 : (i.val * n + j.val) % n = j.val := by
    rw [Nat.mul_comm, Nat.mul_add_mod, Nat.mod_eq_of_lt j.isLt]
  rw [h1, h2]

/-- the determinant of 3x3 matrix (2,1,0;1,3,1;0,1,4) is 18 -/
example : matrixDeterminant (fun k => ([2, 1, 0, 1, 3, 1, 0, 1, 4] : List Int).getD k 0) 3 = 18 := by decide +kernel

/-- a matrix of size zero falls in the general branch and gives 0 rather than 1 -/
theorem C27_size_zero_violated {R : Type} [CommRing R] (m : Nat → R) : matrixDeterminant m 0 = 0 := rfl

end Nissa.Det
