import Verif.Color.PropsSu3Mem2

/-!
# C31: setting a complex number or a matrix, and the Hermitian conjugate times a real out of place
-/
set_option linter.all false

namespace Nissa.Su3

open Nissa.Cplx Complex ComplexConjugate Matrix

/-- setting a complex number to a real, to an imaginary or to zero stores that number and changes nothing else -/
theorem C31_complex_put (a : ℕ) (r : ℝ) (m : Mem) :
    (val (complex_put_to_real a r m) a = (r : ℂ) ∧ OnlyAt a m (complex_put_to_real a r m)) ∧
    (val (complex_put_to_imag a r m) a = (r : ℂ) * Complex.I ∧ OnlyAt a m (complex_put_to_imag a r m)) ∧
    (val (complex_put_to_zero a m) a = 0 ∧ OnlyAt a m (complex_put_to_zero a m)) := by
  refine ⟨⟨?_, ?_⟩, ⟨?_, ?_⟩, ?_, ?_⟩
  · apply Complex.ext <;> simp [complex_put_to_real, val, put]
  · intro q h1 h2; simp [complex_put_to_real, put, h1, h2]
  · apply Complex.ext <;> simp [complex_put_to_imag, val, put]
  · intro q h1 h2; simp [complex_put_to_imag, put, h1, h2]
  · apply Complex.ext <;> simp [complex_put_to_zero, complex_put_to_real, val, put]
  · intro q h1 h2; simp [complex_put_to_zero, complex_put_to_real, put, h1, h2]

/-- setting a matrix to zero, to the identity: the whole old content is lost and nothing else is changed -/
theorem C31_su3_put (a : ℕ) (m : Mem) :
    (mat (su3_put_to_zero a m) a = 0 ∧ Only a 18 m (su3_put_to_zero a m)) ∧
    (mat (su3_put_to_id a m) a = 1 ∧ Only a 18 m (su3_put_to_id a m)) := by
  have z := loop2_spec a (fun i j => complex_put_to_zero (el a i j)) (fun _ _ _ => 0)
    (fun i j m => (C31_complex_put (el a i j) 0 m).2.2.2) (fun i j m _ _ _ => (C31_complex_put (el a i j) 0 m).2.2.1) m
  have hz : mat (su3_put_to_zero a m) a = 0 := by ext i j; exact z.1 i j
  refine ⟨⟨hz, z.2⟩, ?_, ?_⟩
  · obtain ⟨e00, e01, e02, e10, e11, e12, e20, e21, e22⟩ := el_num a
    have hk : ∀ i j, su3_put_to_zero a m (el a i j) = 0 ∧ su3_put_to_zero a m (el a i j + 1) = 0 := by
      intro i j
      have := z.1 i j
      exact ⟨congrArg Complex.re this, congrArg Complex.im this⟩
    have k00 := hk 0 0; have k01 := hk 0 1; have k02 := hk 0 2
    have k10 := hk 1 0; have k11 := hk 1 1; have k12 := hk 1 2
    have k20 := hk 2 0; have k21 := hk 2 1; have k22 := hk 2 2
    simp only [e00, e01, e02, e10, e11, e12, e20, e21, e22, Nat.add_assoc] at k00 k01 k02 k10 k11 k12 k20 k21 k22
    ext i j
    unfold su3_put_to_id
    generalize su3_put_to_zero a m = z at *
    fin_cases i <;> fin_cases j <;>
      simp [cols, mat, val, put, Matrix.of_apply, e00, e01, e02, e10, e11, e12, e20, e21, e22, Complex.ext_iff, Nat.add_assoc,
        k00, k01, k02, k10, k11, k12, k20, k21, k22]
  · intro q hq
    obtain ⟨e00, e01, e02, e10, e11, e12, e20, e21, e22⟩ := el_num a
    unfold su3_put_to_id
    simp only [cols, List.foldl_cons, List.foldl_nil, put, e00, e11, e22]
    rw [if_neg (by omega), if_neg (by omega), if_neg (by omega)]
    exact z.2 q hq

/-- the Hermitian conjugate times a real, out of place: right if the two matrices do not overlap, and nothing else is changed -/
theorem C31_su3_hermitian_prod_double (r : ℝ) (a b : ℕ) (m : Mem) (h : MApart a b) :
    mat (unsafe_su3_hermitian_prod_double r a b m) a = (r : ℂ) • (mat m b)ᴴ ∧ Only a 18 m (unsafe_su3_hermitian_prod_double r a b m) := by
  have s := loop2_spec a (fun i j m => put (put m (el a i j) (r * m (el b j i))) (el a i j + 1) (-r * (put m (el a i j) (r * m (el b j i))) (el b j i + 1)))
    (fun i j m => (r : ℂ) * conj (val m (el b j i))) (by
      intro i j m q h1 h2; simp [put, h1, h2]) (by
      intro i j m m0 ho _
      have hb := elb b j i
      have ha := elb a i j
      have n0 : el b j i ≠ el a i j := by unfold MApart Sep at h; omega
      have n1 : el b j i + 1 ≠ el a i j := by unfold MApart Sep at h; omega
      have q0 : m (el b j i) = m0 (el b j i) := ho _ (by unfold MApart Sep at h; omega)
      have q1 : m (el b j i + 1) = m0 (el b j i + 1) := ho _ (by unfold MApart Sep at h; omega)
      apply Complex.ext <;> simp [val, put, n0, n1, q0, q1]) m
  refine ⟨?_, s.2⟩
  ext i j
  rw [Matrix.smul_apply, smul_eq_mul, Matrix.conjTranspose_apply]
  exact s.1 i j

/-- in place it is wrong: the lower triangle is read after it has been overwritten -/
theorem C31_violated_hermitian_prod_double_in_place :
    ∃ m, mat (unsafe_su3_hermitian_prod_double 2 0 0 m) 0 ≠ ((2 : ℝ) : ℂ) • (mat m 0)ᴴ := by
  refine ⟨fun q => if q = 6 then 1 else 0, fun h => ?_⟩
  have := congrFun (congrFun h 1) 0
  have := congrArg Complex.re this
  simp [unsafe_su3_hermitian_prod_double, loop2, pairs, mat, val, put, el, Matrix.of_apply] at this

example : MApart 0 18 := Or.inl (by decide)

end Nissa.Su3
