import Verif.Color.PropsSu3Fun
import Mathlib.LinearAlgebra.LinearIndependent.Lemmas

/-! # C37: completion of the third row, orthonormalisation -/

set_option linter.all false

namespace Nissa.Su3f

open Complex ComplexConjugate Matrix

theorem third_row_aux (o : M3)
    (h00 : o 0 0 * conj (o 0 0) + o 0 1 * conj (o 0 1) + o 0 2 * conj (o 0 2) = 1)
    (h11 : o 1 0 * conj (o 1 0) + o 1 1 * conj (o 1 1) + o 1 2 * conj (o 1 2) = 1)
    (h10 : o 1 0 * conj (o 0 0) + o 1 1 * conj (o 0 1) + o 1 2 * conj (o 0 2) = 0) : IsSU3 (su3_build_third_row o) := by
  have h01 : o 0 0 * conj (o 1 0) + o 0 1 * conj (o 1 1) + o 0 2 * conj (o 1 2) = 0 := by
    have := congrArg conj h10
    simp only [map_add, map_mul, Complex.conj_conj, map_zero] at this
    linear_combination this
  constructor
  · ext i j
    fin_cases i <;> fin_cases j <;>
      simp [su3_build_third_row, Matrix.mul_apply, Fin.sum_univ_three]
    · linear_combination h00
    · linear_combination h01
    · ring
    · linear_combination h10
    · linear_combination h11
    · ring
    · ring
    · ring
    · linear_combination h00 * (o 1 0 * conj (o 1 0) + o 1 1 * conj (o 1 1) + o 1 2 * conj (o 1 2)) + h11 -
        h10 * (o 0 0 * conj (o 1 0) + o 0 1 * conj (o 1 1) + o 0 2 * conj (o 1 2))
  · rw [Matrix.det_fin_three]
    simp [su3_build_third_row]
    linear_combination h00 * (o 1 0 * conj (o 1 0) + o 1 1 * conj (o 1 1) + o 1 2 * conj (o 1 2)) + h11 -
        h10 * (o 0 0 * conj (o 1 0) + o 0 1 * conj (o 1 1) + o 0 2 * conj (o 1 2))

/-- hermitian scalar product of two rows -/
def rowDot (x y : Fin 3 → ℂ) : ℂ := ∑ k, x k * conj (y k)

/-- If the two first rows are orthonormal, building the third gives an SU(3) matrix with the same first rows; on an SU(3)
matrix nothing changes, so that two rows are enough to store it. -/
theorem C37_third_row (o : M3) :
    (rowDot (o 0) (o 0) = 1 → rowDot (o 1) (o 1) = 1 → rowDot (o 1) (o 0) = 0 →
      IsSU3 (su3_build_third_row o) ∧ su3_build_third_row o 0 = o 0 ∧ su3_build_third_row o 1 = o 1) ∧
    (IsSU3 o → su3_build_third_row o = o) := by
  constructor
  · intro h00 h11 h10
    simp only [rowDot, Fin.sum_univ_three] at h00 h11 h10
    refine ⟨third_row_aux o h00 h11 h10, ?_, ?_⟩
    · ext k; fin_cases k <;> rfl
    · ext k; fin_cases k <;> rfl
  · rintro ⟨hu, hd⟩
    have h := inverse_unitary o hu
    have e : ∀ k, conj (o 2 k) = su3_explicit_inverse o k 2 := by
      intro k; rw [h]; rfl
    have e' : ∀ k, o 2 k = conj (su3_explicit_inverse o k 2) := by
      intro k; rw [← e k, Complex.conj_conj]
    have f0 : su3_explicit_inverse o 0 2 = o 0 1 * o 1 2 - o 0 2 * o 1 1 := by
      simp [su3_explicit_inverse, recip_eq, det_eq, hd]
    have f1 : su3_explicit_inverse o 1 2 = o 0 2 * o 1 0 - o 0 0 * o 1 2 := by
      simp [su3_explicit_inverse, recip_eq, det_eq, hd]
    have f2 : su3_explicit_inverse o 2 2 = o 0 0 * o 1 1 - o 0 1 * o 1 0 := by
      simp [su3_explicit_inverse, recip_eq, det_eq, hd]
    ext i j
    fin_cases i <;> fin_cases j <;> try rfl
    · refine Eq.trans ?_ (e' 0).symm
      rw [f0]; simp [su3_build_third_row]
    · refine Eq.trans ?_ (e' 1).symm
      rw [f1]; simp [su3_build_third_row]
    · refine Eq.trans ?_ (e' 2).symm
      rw [f2]; simp [su3_build_third_row]

theorem norm2_dot (c : Fin 3 → ℂ) : ((color_norm2 c : ℝ) : ℂ) = rowDot c c := by
  simp only [rowDot, color_norm2, Fin.sum_univ_three, Complex.mul_conj, Complex.normSq_apply]
  push_cast; ring

theorem norm2_nonneg (c : Fin 3 → ℂ) : 0 ≤ color_norm2 c := by
  unfold color_norm2
  have := mul_self_nonneg (c 0).re; have := mul_self_nonneg (c 0).im
  have := mul_self_nonneg (c 1).re; have := mul_self_nonneg (c 1).im
  have := mul_self_nonneg (c 2).re; have := mul_self_nonneg (c 2).im
  linarith

theorem norm2_pos (c : Fin 3 → ℂ) (h : c ≠ 0) : 0 < color_norm2 c := by
  rcases (norm2_nonneg c).lt_or_eq with h1 | h1
  · exact h1
  · exfalso; apply h
    unfold color_norm2 at h1
    have q0 := mul_self_nonneg (c 0).re; have q1 := mul_self_nonneg (c 0).im
    have q2 := mul_self_nonneg (c 1).re; have q3 := mul_self_nonneg (c 1).im
    have q4 := mul_self_nonneg (c 2).re; have q5 := mul_self_nonneg (c 2).im
    have z0 : (c 0).re = 0 := mul_self_eq_zero.mp (by linarith)
    have z1 : (c 0).im = 0 := mul_self_eq_zero.mp (by linarith)
    have z2 : (c 1).re = 0 := mul_self_eq_zero.mp (by linarith)
    have z3 : (c 1).im = 0 := mul_self_eq_zero.mp (by linarith)
    have z4 : (c 2).re = 0 := mul_self_eq_zero.mp (by linarith)
    have z5 : (c 2).im = 0 := mul_self_eq_zero.mp (by linarith)
    funext k; fin_cases k
    · exact Complex.ext z0 z1
    · exact Complex.ext z2 z3
    · exact Complex.ext z4 z5

theorem scaled (n : ℝ) (z : ℂ) : (⟨n * z.re, n * z.im⟩ : ℂ) = (n : ℂ) * z := by
  apply Complex.ext <;> simp

theorem rowDot_smul (a b : ℂ) (x y : Fin 3 → ℂ) : rowDot (fun k => a * x k) (fun k => b * y k) = a * conj b * rowDot x y := by
  simp only [rowDot, Fin.sum_univ_three, map_mul]; ring

theorem unit_of_norm (c : Fin 3 → ℂ) (h : 0 < color_norm2 c) :
    ((1 / Real.sqrt (color_norm2 c) : ℝ) : ℂ) * conj ((1 / Real.sqrt (color_norm2 c) : ℝ) : ℂ) * rowDot c c = 1 := by
  rw [← norm2_dot, Complex.conj_ofReal, ← Complex.ofReal_mul, ← Complex.ofReal_mul]
  have hs : Real.sqrt (color_norm2 c) ≠ 0 := (Real.sqrt_pos.mpr h).ne'
  have hss := Real.mul_self_sqrt h.le
  norm_cast
  field_simp
  nlinarith

/-- the second row with its component along the first removed -/
noncomputable def orthRow (i : M3) : Fin 3 → ℂ := fun k =>
  i 1 k - (i 1 0 * conj (i 0 0) + i 1 1 * conj (i 0 1) + i 1 2 * conj (i 0 2)) * ((1 / color_norm2 (i 0) : ℝ) : ℂ) * i 0 k

theorem ortho_unfold (i : M3) : ∃ r : M3, su3_unitarize_orthonormalizing i = su3_build_third_row r ∧
    r 0 = (fun k => ((1 / Real.sqrt (color_norm2 (i 0)) : ℝ) : ℂ) * i 0 k) ∧
    r 1 = (fun k => ((1 / Real.sqrt (color_norm2 (orthRow i)) : ℝ) : ℂ) * orthRow i k) ∧ r 2 = i 2 := by
  refine ⟨_, rfl, ?_, ?_, ?_⟩
  · funext k; fin_cases k <;> exact scaled _ _
  · funext k; fin_cases k <;> exact scaled _ _
  · funext k; fin_cases k <;> rfl

/-- The orthonormalisation gives an SU(3) matrix whenever the two first rows are linearly independent; the first row keeps
its direction, and SU(3) matrices are left as they are. -/
theorem C37_orthonormalizing (i : M3) :
    (LinearIndependent ℂ ![i 0, i 1] → IsSU3 (su3_unitarize_orthonormalizing i) ∧
      ∃ r : ℝ, 0 < r ∧ su3_unitarize_orthonormalizing i 0 = (r : ℂ) • i 0) ∧
    (IsSU3 i → su3_unitarize_orthonormalizing i = i) := by
  obtain ⟨r, hr, r0, r1, r2⟩ := ortho_unfold i
  constructor
  · intro hli
    rw [LinearIndependent.pair_iff] at hli
    have hi0 : i 0 ≠ 0 := by
      intro h0
      have := (hli 1 0 (by rw [h0]; simp)).1
      exact one_ne_zero this
    have ho1 : orthRow i ≠ 0 := by
      intro h0
      have := (hli (-((i 1 0 * conj (i 0 0) + i 1 1 * conj (i 0 1) + i 1 2 * conj (i 0 2)) *
        ((1 / color_norm2 (i 0) : ℝ) : ℂ))) 1 (by
          funext k
          have hk := congrFun h0 k
          simp only [orthRow, Pi.zero_apply] at hk
          simp only [Pi.add_apply, Pi.smul_apply, smul_eq_mul, Pi.zero_apply]
          linear_combination hk)).2
      exact one_ne_zero this
    have p0 := norm2_pos _ hi0
    have p1 := norm2_pos _ ho1
    have d0 : rowDot (r 0) (r 0) = 1 := by rw [r0, rowDot_smul]; exact unit_of_norm _ p0
    have d1 : rowDot (r 1) (r 1) = 1 := by rw [r1, rowDot_smul]; exact unit_of_norm _ p1
    have d10 : rowDot (r 1) (r 0) = 0 := by
      rw [r0, r1, rowDot_smul]
      have : rowDot (orthRow i) (i 0) = 0 := by
        have hn := norm2_dot (i 0)
        have hne : ((color_norm2 (i 0) : ℝ) : ℂ) ≠ 0 := by exact_mod_cast p0.ne'
        have e : rowDot (orthRow i) (i 0) = rowDot (i 1) (i 0) - rowDot (i 1) (i 0) *
            ((1 / color_norm2 (i 0) : ℝ) : ℂ) * rowDot (i 0) (i 0) := by
          simp only [rowDot, orthRow, Fin.sum_univ_three]; ring
        rw [e, ← hn]
        push_cast
        field_simp
        ring
      rw [this, mul_zero]
    obtain ⟨s1, s2, s3⟩ := (C37_third_row r).1 d0 d1 d10
    rw [hr]
    refine ⟨s1, 1 / Real.sqrt (color_norm2 (i 0)), one_div_pos.mpr (Real.sqrt_pos.mpr p0), ?_⟩
    rw [s2, r0]; rfl
  · rintro hi
    have hu := hi.1
    have e00 : rowDot (i 0) (i 0) = 1 := by
      have := congrFun (congrFun hu 0) 0
      simpa [Matrix.mul_apply, rowDot, Matrix.conjTranspose_apply] using this
    have e11 : rowDot (i 1) (i 1) = 1 := by
      have := congrFun (congrFun hu 1) 1
      simpa [Matrix.mul_apply, rowDot, Matrix.conjTranspose_apply] using this
    have e10 : i 1 0 * conj (i 0 0) + i 1 1 * conj (i 0 1) + i 1 2 * conj (i 0 2) = 0 := by
      have := congrFun (congrFun hu 1) 0
      simpa [Matrix.mul_apply, Fin.sum_univ_three, Matrix.conjTranspose_apply] using this
    have n0 : color_norm2 (i 0) = 1 := by
      have := norm2_dot (i 0); rw [e00] at this; exact_mod_cast this
    have o1 : orthRow i = i 1 := by funext k; simp only [orthRow, e10]; ring
    have n1 : color_norm2 (i 1) = 1 := by
      have := norm2_dot (i 1); rw [e11] at this; exact_mod_cast this
    have : r = i := by
      funext a
      fin_cases a
      · show r 0 = i 0
        rw [r0, n0]; funext k; simp
      · show r 1 = i 1
        rw [r1, o1, n1]; funext k; simp
      · exact r2
    rw [hr, this]
    exact (C37_third_row i).2 hi

/-- The routine measuring the violation of unitarity returns zero exactly on the unitary matrices. -/
theorem C37_non_unitariness (u : M3) : su3_get_non_unitariness u = 0 ↔ u * uᴴ = 1 := by
  have key : su3_get_non_unitariness u = 0 ↔
      (color_norm2 (u 0) = 1 ∧ color_norm2 (u 1) = 1 ∧ color_norm2 (u 2) = 1 ∧
        rowDot (u 1) (u 0) = 0 ∧ rowDot (u 2) (u 0) = 0 ∧ rowDot (u 2) (u 1) = 0) := by
    have sc : ∀ i j : Fin 3, conj (u i 0) * u j 0 + conj (u i 1) * u j 1 + conj (u i 2) * u j 2 = rowDot (u j) (u i) := by
      intro i j; simp only [rowDot, Fin.sum_univ_three]; ring
    unfold su3_get_non_unitariness
    simp only [sc]
    have a0 := sq_nonneg (color_norm2 (u 0) - 1)
    have a1 := sq_nonneg (color_norm2 (u 1) - 1)
    have a2 := sq_nonneg (color_norm2 (u 2) - 1)
    have b0 := Complex.normSq_nonneg (rowDot (u 1) (u 0))
    have b1 := Complex.normSq_nonneg (rowDot (u 2) (u 0))
    have b2 := Complex.normSq_nonneg (rowDot (u 2) (u 1))
    rw [Real.sqrt_eq_zero (by linarith)]
    constructor
    · intro h
      refine ⟨?_, ?_, ?_, ?_, ?_, ?_⟩
      · have : (color_norm2 (u 0) - 1)^2 = 0 := by linarith
        have := pow_eq_zero_iff (two_ne_zero) |>.mp this; linarith
      · have : (color_norm2 (u 1) - 1)^2 = 0 := by linarith
        have := pow_eq_zero_iff (two_ne_zero) |>.mp this; linarith
      · have : (color_norm2 (u 2) - 1)^2 = 0 := by linarith
        have := pow_eq_zero_iff (two_ne_zero) |>.mp this; linarith
      · exact Complex.normSq_eq_zero.mp (by linarith)
      · exact Complex.normSq_eq_zero.mp (by linarith)
      · exact Complex.normSq_eq_zero.mp (by linarith)
    · rintro ⟨h0, h1, h2, k0, k1, k2⟩
      rw [h0, h1, h2, k0, k1, k2]; simp
  have ent : ∀ i j, (u * uᴴ) i j = rowDot (u i) (u j) := by
    intro i j; simp [Matrix.mul_apply, rowDot, Matrix.conjTranspose_apply]
  have cj : ∀ i j, rowDot (u i) (u j) = conj (rowDot (u j) (u i)) := by
    intro i j; simp only [rowDot, Fin.sum_univ_three, map_add, map_mul, Complex.conj_conj]; ring
  rw [key]
  constructor
  · rintro ⟨h0, h1, h2, k0, k1, k2⟩
    ext i j
    rw [ent]
    fin_cases i <;> fin_cases j
    · show rowDot (u 0) (u 0) = _; rw [← norm2_dot, h0]; simp
    · show rowDot (u 0) (u 1) = _; rw [cj, k0]; simp
    · show rowDot (u 0) (u 2) = _; rw [cj, k1]; simp
    · show rowDot (u 1) (u 0) = _; rw [k0]; simp
    · show rowDot (u 1) (u 1) = _; rw [← norm2_dot, h1]; simp
    · show rowDot (u 1) (u 2) = _; rw [cj, k2]; simp
    · show rowDot (u 2) (u 0) = _; rw [k1]; simp
    · show rowDot (u 2) (u 1) = _; rw [k2]; simp
    · show rowDot (u 2) (u 2) = _; rw [← norm2_dot, h2]; simp
  · intro h
    have e : ∀ i j, rowDot (u i) (u j) = (1 : M3) i j := by intro i j; rw [← ent, h]
    have d : ∀ i, color_norm2 (u i) = 1 := by
      intro i
      have := norm2_dot (u i); rw [e] at this; simp at this; exact_mod_cast this
    exact ⟨d 0, d 1, d 2, by rw [e]; simp, by rw [e]; simp, by rw [e]; simp⟩

/-- a matrix, not unitary, with independent rows -/
example : LinearIndependent ℂ ![(!![2, 0, 0; 1, 1, 0; 0, 0, 0] : M3) 0, (!![2, 0, 0; 1, 1, 0; 0, 0, 0] : M3) 1] := by
  rw [LinearIndependent.pair_iff]
  intro s t h
  have h0 := congrFun h 0
  have h1 := congrFun h 1
  simp at h0 h1
  refine ⟨?_, h1⟩
  rw [h1] at h0; simpa using h0

end Nissa.Su3f
