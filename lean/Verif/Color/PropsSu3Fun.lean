import Verif.Color.Su3Fun

/-! # C31: determinant, inverse, projections on the algebra and on the group -/

set_option linter.all false

namespace Nissa.Su3f

open Complex ComplexConjugate Matrix

/-- SU(3): unitary, of determinant 1 -/
def IsSU3 (U : M3) : Prop := U * Uᴴ = 1 ∧ U.det = 1

theorem det_eq (u : M3) : su3_det u = u.det := by
  rw [Matrix.det_fin_three]; unfold su3_det; ring

/-- The formula in real and imaginary parts gives the real part of the determinant of every matrix. -/
theorem C31_real_det (u : M3) : su3_real_det u = (u.det).re := by
  rw [Matrix.det_fin_three]
  simp only [su3_real_det, Complex.add_re, Complex.sub_re, Complex.mul_re, Complex.mul_im, Complex.sub_im, Complex.add_im]
  ring

theorem recip_eq (z : ℂ) : complex_reciprocal z = z⁻¹ := by
  unfold complex_reciprocal
  apply Complex.ext
  · simp [Complex.inv_re, Complex.normSq_apply]
  · simp [Complex.inv_im, Complex.normSq_apply]

theorem inverse_adj (U : M3) : su3_explicit_inverse U = (U.det)⁻¹ • U.adjugate := by
  ext i j
  simp only [su3_explicit_inverse, recip_eq, det_eq]
  rw [Matrix.adjugate_fin_three]
  fin_cases i <;> fin_cases j <;> simp <;> ring

/-- The explicit inverse is the inverse, on both sides, of every invertible matrix. -/
theorem C31_explicit_inverse (U : M3) (h : U.det ≠ 0) :
    U * su3_explicit_inverse U = 1 ∧ su3_explicit_inverse U * U = 1 := by
  rw [inverse_adj]
  constructor
  · rw [Matrix.mul_smul, Matrix.mul_adjugate, smul_smul, inv_mul_cancel₀ h, one_smul]
  · rw [Matrix.smul_mul, Matrix.adjugate_mul, smul_smul, inv_mul_cancel₀ h, one_smul]

theorem inverse_unitary (U : M3) (h : U * Uᴴ = 1) : su3_explicit_inverse U = Uᴴ := by
  have hd : U.det ≠ 0 := by
    intro h0
    have := congrArg Matrix.det h
    rw [Matrix.det_mul, h0, zero_mul, Matrix.det_one] at this
    exact zero_ne_one this
  have h1 := (C31_explicit_inverse U hd).2
  calc su3_explicit_inverse U = su3_explicit_inverse U * (U * Uᴴ) := by rw [h, Matrix.mul_one]
    _ = Uᴴ := by rw [← Matrix.mul_assoc, h1, Matrix.one_mul]

/-! ### algebra -/

/-- The projections: whatever the previous content of the output, and also in place, the result is the (traceless)
(anti)hermitian part of the input. -/
theorem C38_algebra_parts (inp o : M3) :
    su3_traceless_anti_hermitian_part inp o
      = (1 / 2 : ℂ) • (inp - inpᴴ) - (Matrix.trace ((1 / 2 : ℂ) • (inp - inpᴴ)) / 3) • (1 : M3) ∧
    su3_traceless_anti_hermitian_part_in_place inp = su3_traceless_anti_hermitian_part inp o ∧
    su3_anti_hermitian_part inp o = (1 / 2 : ℂ) • (inp - inpᴴ) ∧
    su3_anti_hermitian_part_in_place inp = su3_anti_hermitian_part inp o ∧
    su3_traceless_hermitian_part inp o
      = (1 / 2 : ℂ) • (inp + inpᴴ) - (Matrix.trace ((1 / 2 : ℂ) • (inp + inpᴴ)) / 3) • (1 : M3) ∧
    su3_traceless_hermitian_part_in_place inp = su3_traceless_hermitian_part inp o := by
  have b0 : below 0 = [] := by decide
  have b1 : below 1 = [0] := by decide
  have b2 : below 2 = [0, 1] := by decide
  refine ⟨?_, ?_, ?_, ?_, ?_, ?_⟩
  all_goals
    ext i j
    fin_cases i <;> fin_cases j <;>
    simp [su3_traceless_anti_hermitian_part, su3_traceless_anti_hermitian_part_in_place, su3_anti_hermitian_part,
      su3_anti_hermitian_part_in_place, su3_traceless_hermitian_part, su3_traceless_hermitian_part_in_place,
      antiHermLoop, hermLoop, b0, b1, b2, upd, Matrix.trace, Fin.sum_univ_three, Complex.ext_iff]
  all_goals
    first
    | (constructor <;> ring)
    | ring
    | skip

/-- the parts belong to the algebra -/
theorem C38_algebra (inp o : M3) :
    (su3_traceless_anti_hermitian_part inp o)ᴴ = -su3_traceless_anti_hermitian_part inp o ∧
    Matrix.trace (su3_traceless_anti_hermitian_part inp o) = 0 ∧
    (su3_traceless_hermitian_part inp o)ᴴ = su3_traceless_hermitian_part inp o ∧
    Matrix.trace (su3_traceless_hermitian_part inp o) = 0 := by
  have b0 : below 0 = [] := by decide
  have b1 : below 1 = [0] := by decide
  have b2 : below 2 = [0, 1] := by decide
  refine ⟨?_, ?_, ?_, ?_⟩
  · ext i j
    fin_cases i <;> fin_cases j <;>
    simp [su3_traceless_anti_hermitian_part, antiHermLoop, b0, b1, b2, upd, Complex.ext_iff]
  · simp [su3_traceless_anti_hermitian_part, antiHermLoop, b0, b1, b2, upd, Complex.ext_iff, Matrix.trace, Fin.sum_univ_three]
    ring
  · ext i j
    fin_cases i <;> fin_cases j <;>
    simp [su3_traceless_hermitian_part, hermLoop, b0, b1, b2, upd, Complex.ext_iff]
  · simp [su3_traceless_hermitian_part, hermLoop, b0, b1, b2, upd, Complex.ext_iff, Matrix.trace, Fin.sum_univ_three]
    ring

/-! ### order of the directions -/

/-- Going to the order of the files and back gives the same four links, whatever the outputs contained. -/
theorem C31_ildg_reord {α : Type} (inp o o' : Fin 4 → α) :
    quad_su3_ildg_to_nissa_reord (quad_su3_nissa_to_ildg_reord inp o) o' = inp ∧
    quad_su3_nissa_to_ildg_reord (quad_su3_ildg_to_nissa_reord inp o) o' = inp ∧
    (∀ k : Fin 3, quad_su3_nissa_to_ildg_reord inp o k.castSucc = inp k.succ) ∧
    quad_su3_nissa_to_ildg_reord inp o 3 = inp 0 := by
  refine ⟨?_, ?_, ?_, ?_⟩
  · ext mu; fin_cases mu <;> rfl
  · ext mu; fin_cases mu <;> rfl
  · intro k; fin_cases k <;> rfl
  · rfl

/-! ### Gell-Mann -/

/-- The tabulated matrices are hermitian, traceless and normalised to `Tr(λaλb)=2δab`. -/
theorem C38_gell_mann (a b : Fin 8) :
    (gell_mann_matr a)ᴴ = gell_mann_matr a ∧ Matrix.trace (gell_mann_matr a) = 0 ∧
    Matrix.trace (gell_mann_matr a * gell_mann_matr b) = if a = b then 2 else 0 := by
  have hs : Real.sqrt 3 * Real.sqrt 3 = 3 := Real.mul_self_sqrt (by norm_num)
  have hp : 0 < Real.sqrt 3 := Real.sqrt_pos.mpr (by norm_num)
  have hi : (Real.sqrt 3)⁻¹ * (Real.sqrt 3)⁻¹ = 1 / 3 := by rw [← mul_inv, hs]; norm_num
  refine ⟨?_, ?_, ?_⟩
  · ext i j
    fin_cases a <;> fin_cases i <;> fin_cases j <;> simp [gell_mann_matr, Complex.ext_iff]
  · fin_cases a <;> simp [gell_mann_matr, Matrix.trace, Fin.sum_univ_three, Complex.ext_iff]
    have : -2 / Real.sqrt 3 = -(2 * (Real.sqrt 3 / 3)) := by
      field_simp; nlinarith [hs]
    rw [this]; ring
  · fin_cases a <;> fin_cases b <;>
      simp [gell_mann_matr, Matrix.trace, Fin.sum_univ_three, Matrix.mul_apply, Complex.ext_iff]
    all_goals
      have h2 : -2 / Real.sqrt 3 = -(2 * (Real.sqrt 3 / 3)) := by
        field_simp; nlinarith [hs]
      first
      | norm_num; done
      | (rw [h2]; nlinarith [hs])

end Nissa.Su3f
