import Verif.Color.PropsSu3Exp
import Mathlib.Analysis.SpecialFunctions.Trigonometric.Bounds
import Mathlib.Analysis.Complex.Exponential
import Mathlib.LinearAlgebra.Matrix.SchurComplement

/-! # C37, C38: exponential, series, iterative projections -/

set_option linter.all false

namespace Nissa.Su3f

open Complex ComplexConjugate Matrix NormedSpace

/-- `exp(iQ)` of a hermitian traceless matrix is in SU(3) -/
theorem exp_su3 (Q : M3) (hh : Qᴴ = Q) (ht : Matrix.trace Q = 0) : IsSU3 (exp (I • Q)) := by
  obtain ⟨W, d, hW', hW, hQ⟩ := diag_exists Q hh
  have inv := inv_diag W d hW hW'
  rw [← hQ] at inv
  have hs : d 0 + d 1 + d 2 = 0 := by have := inv.1; rw [ht] at this; exact_mod_cast this.symm
  have e : I • Q = W * diagonal (fun i => (d i : ℂ) * I) * Wᴴ := by
    rw [hQ, ← Matrix.smul_mul, ← Matrix.mul_smul]
    congr 2
    ext i j
    by_cases hij : i = j
    · subst hij; simp [mul_comm]
    · simp [hij]
  rw [e, exp_diag W _ hW hW']
  constructor
  · rw [Matrix.conjTranspose_mul, Matrix.conjTranspose_mul, Matrix.conjTranspose_conjTranspose, Matrix.diagonal_conjTranspose]
    calc W * diagonal (fun i => Complex.exp ((d i : ℂ) * I)) * Wᴴ * (W * (diagonal (star fun i => Complex.exp ((d i : ℂ) * I)) * Wᴴ))
        = W * (diagonal (fun i => Complex.exp ((d i : ℂ) * I)) * (Wᴴ * W) * diagonal (star fun i => Complex.exp ((d i : ℂ) * I))) * Wᴴ := by
          simp only [Matrix.mul_assoc]
      _ = W * (diagonal (fun i => Complex.exp ((d i : ℂ) * I)) * diagonal (star fun i => Complex.exp ((d i : ℂ) * I))) * Wᴴ := by
          rw [hW, Matrix.mul_one]
      _ = W * 1 * Wᴴ := by
          congr 2
          rw [Matrix.diagonal_mul_diagonal, ← Matrix.diagonal_one]
          congr 1
          funext i
          show _ * conj _ = 1
          rw [← Complex.exp_conj, ← Complex.exp_add]; simp
      _ = 1 := by rw [Matrix.mul_one, hW']
  · rw [Matrix.det_mul_right_comm, hW', Matrix.one_mul, Matrix.det_diagonal, Fin.prod_univ_three, ← Complex.exp_add,
      ← Complex.exp_add]
    have : (d 0 : ℂ) * I + (d 1 : ℂ) * I + (d 2 : ℂ) * I = 0 := by
      rw [← add_mul, ← add_mul]
      have : (d 0 : ℂ) + d 1 + d 2 = 0 := by exact_mod_cast hs
      rw [this, zero_mul]
    rw [this, Complex.exp_zero]

/-- the antihermitian version, and the group property -/
theorem C38_anti_exponential (A : M3) (hh : Aᴴ = -A) (ht : Matrix.trace A = 0)
    (hc1 : 4e-3 ≤ expC1 ((-I) • A)) (heps : 1e-3 ≤ expEps ((-I) • A)) (hw : 0.05 ≤ |expW ((-I) • A)|) :
    anti_hermitian_exact_exponentiate A = exp A ∧ IsSU3 (anti_hermitian_exact_exponentiate A) := by
  have h1 : ((-I) • A)ᴴ = (-I) • A := by
    rw [Matrix.conjTranspose_smul, hh]; ext i j; simp
  have h2 : Matrix.trace ((-I) • A) = 0 := by rw [Matrix.trace_smul, ht, smul_zero]
  have h3 : I • ((-I) • A) = A := by rw [smul_smul]; simp
  have e := C38_exponential _ h1 h2 hc1 heps hw
  have g := exp_su3 _ h1 h2
  unfold anti_hermitian_exact_exponentiate
  rw [e]
  exact ⟨by rw [h3], g⟩

/-- a matrix meeting the hypotheses: `diag(1,-1,0)` -/
example : let Q : M3 := diagonal ![1, -1, 0]
    Qᴴ = Q ∧ Matrix.trace Q = 0 ∧ 4e-3 ≤ expC1 Q ∧ 1e-3 ≤ expEps Q ∧ 0.05 ≤ |expW Q| := by
  intro Q
  have c1 : expC1 Q = 1 := by
    simp [expC1, su3_real_trace, Q, Matrix.diagonal_mul_diagonal]
  have c0 : expC0 Q = 0 := by
    simp [expC0, C31_real_det, Q, Matrix.det_diagonal, Fin.prod_univ_three]
  have cm : 0 < expC0max Q := by
    unfold expC0max; rw [c1]; positivity
  refine ⟨?_, ?_, ?_, ?_, ?_⟩
  · ext i j
    fin_cases i <;> fin_cases j <;> simp [Q]
  · simp [Q, Matrix.trace_diagonal, Fin.sum_univ_three]
  · rw [c1]; norm_num
  · unfold expEps; rw [c0, sub_zero, div_self cm.ne']; norm_num
  · unfold expW expTheta
    rw [c1, c0, zero_div, Real.arccos_zero, show Real.pi / 2 / 3 = Real.pi / 6 by ring, Real.sin_pi_div_six]
    norm_num

/-- the branch for small `w`: the series of `sin(w)/w` is exact to less than the precision of a double -/
theorem C38_xi_series (w : ℝ) (h : |w| < 0.05) (h0 : w ≠ 0) :
    |(1-w*w/6*(1-w*w/20*(1-w*w/42))) - Real.sin w / w| ≤ 2e-16 := by
  have hb := Complex.exp_bound (x := (w : ℂ) * I) (by simp; linarith) (n := 9) (by norm_num)
  have him : |(Complex.exp ((w : ℂ) * I) - ∑ m ∈ Finset.range 9, ((w : ℂ) * I) ^ m / (m.factorial : ℂ)).im| ≤
      ‖(w : ℂ) * I‖ ^ 9 * ((Nat.succ 9 : ℝ) * ((Nat.factorial 9 : ℝ) * (9 : ℕ))⁻¹) :=
    (Complex.abs_im_le_norm _).trans hb
  have e : (Complex.exp ((w : ℂ) * I) - ∑ m ∈ Finset.range 9, ((w : ℂ) * I) ^ m / (m.factorial : ℂ)).im =
      Real.sin w - w * (1-w*w/6*(1-w*w/20*(1-w*w/42))) := by
    rw [Complex.sub_im, Complex.exp_ofReal_mul_I_im]
    congr 1
    simp only [Finset.sum_range_succ, Finset.sum_range_zero, Nat.factorial]
    have p2 : ((w : ℂ) * I) ^ 2 = ((-(w*w) : ℝ) : ℂ) := by
      rw [mul_pow, Complex.I_sq]; push_cast; ring
    have p : ∀ k, ((w : ℂ) * I) ^ (2*k) = (((-(w*w))^k : ℝ) : ℂ) := by
      intro k; rw [pow_mul, p2]; push_cast; rfl
    have p' : ∀ k, ((w : ℂ) * I) ^ (2*k+1) = (((-(w*w))^k * w : ℝ) : ℂ) * I := by
      intro k; rw [pow_succ, p]; push_cast; ring
    rw [show ((w : ℂ) * I) ^ 0 = _ from p 0, show ((w : ℂ) * I) ^ 1 = _ from p' 0, show ((w : ℂ) * I) ^ 2 = _ from p 1,
      show ((w : ℂ) * I) ^ 3 = _ from p' 1, show ((w : ℂ) * I) ^ 4 = _ from p 2, show ((w : ℂ) * I) ^ 5 = _ from p' 2,
      show ((w : ℂ) * I) ^ 6 = _ from p 3, show ((w : ℂ) * I) ^ 7 = _ from p' 3, show ((w : ℂ) * I) ^ 8 = _ from p 4]
    have hsum : ∀ a b : ℝ, ((a : ℂ) + (b : ℂ) * I).im = b := by intro a b; simp
    refine Eq.trans (congrArg Complex.im (?_ : _ = (((1 - w^2/2 + w^4/24 - w^6/720 + w^8/40320 : ℝ) : ℂ) +
      ((w * (1-w*w/6*(1-w*w/20*(1-w*w/42))) : ℝ) : ℂ) * I))) (hsum _ _)
    push_cast
    ring
  rw [e] at him
  have hn : ‖(w : ℂ) * I‖ = |w| := by simp
  rw [hn] at him
  have hwp : 0 < |w| := abs_pos.mpr h0
  have e2 : (1-w*w/6*(1-w*w/20*(1-w*w/42))) - Real.sin w / w = -(Real.sin w - w * (1-w*w/6*(1-w*w/20*(1-w*w/42)))) / w := by
    field_simp; ring
  rw [e2, abs_div, abs_neg, div_le_iff₀ hwp]
  refine him.trans ?_
  have h8 : |w|^8 ≤ 0.05^8 := pow_le_pow_left₀ hwp.le h.le 8
  have : |w|^9 = |w|^8 * |w| := by ring
  rw [this]
  have hc : ((Nat.succ 9 : ℝ) * ((Nat.factorial 9 : ℝ) * (9 : ℕ))⁻¹) ≤ 3.1e-6 := by
    norm_num [Nat.factorial]
  have hc0 : 0 ≤ ((Nat.succ 9 : ℝ) * ((Nat.factorial 9 : ℝ) * (9 : ℕ))⁻¹) := by positivity
  calc |w|^8 * |w| * ((Nat.succ 9 : ℝ) * ((Nat.factorial 9 : ℝ) * (9 : ℕ))⁻¹) ≤ 0.05^8 * |w| * 3.1e-6 := by
        apply mul_le_mul (mul_le_mul_of_nonneg_right h8 hwp.le) hc hc0 (by positivity)
    _ ≤ 2e-16 * |w| := by nlinarith

/-! ### series -/

theorem taylor_inv (inp : M3) (k : ℕ) : taylorLoop inp k = (((k+1).factorial : ℝ)⁻¹, inp^(k+1),
    ∑ j ∈ Finset.range (k+2), ((j.factorial : ℂ)⁻¹) • inp^j) := by
  induction k with
  | zero => simp [taylorLoop, Finset.sum_range_succ]
  | succ k ih =>
    unfold taylorLoop
    rw [ih]
    dsimp only []
    have h1 : ((k+1).factorial : ℝ)⁻¹ / ((k+2 : ℕ) : ℝ) = ((k+1+1).factorial : ℝ)⁻¹ := by
      rw [Nat.factorial_succ (k+1), div_eq_mul_inv, ← mul_inv]; push_cast; ring_nf
    rw [h1, Finset.sum_range_succ _ (k+2), ← pow_succ]
    congr 3
    push_cast; rfl

/-- The Taylor exponential is the partial sum of the exponential series up to the given order (at least one). -/
theorem C38_taylor (inp : M3) (order : ℕ) : su3_taylor_exponentiate inp order =
    ∑ k ∈ Finset.range (max order 1 + 1), ((k.factorial : ℂ)⁻¹) • inp^k := by
  unfold su3_taylor_exponentiate
  rw [taylor_inv]
  dsimp only []
  congr 2
  omega

/-- asked for the order zero it includes the first order -/
theorem C38_violated_taylor_order_zero : ∃ inp : M3, su3_taylor_exponentiate inp 0 ≠
    ∑ k ∈ Finset.range (0 + 1), ((k.factorial : ℂ)⁻¹) • inp^k := by
  refine ⟨1, ?_⟩
  rw [C38_taylor]
  intro h
  have := congrFun (congrFun h 0) 0
  simp [Finset.sum_range_succ] at this

theorem over_inv (c : ℕ → ℝ) (f : M3) (k : ℕ) : overrelaxLoop c f k = (f^(k+1),
    1 + ∑ j ∈ Finset.range (k+1), (c (j+1) : ℂ) • f^(j+1)) := by
  induction k with
  | zero => simp [overrelaxLoop]
  | succ k ih =>
    unfold overrelaxLoop
    rw [ih]
    dsimp only []
    rw [Finset.sum_range_succ _ (k+1), ← pow_succ, ← add_assoc]

/-- With integer weight up to four the overrelaxed link is the power of the link. -/
theorem C37_overrelax_power (U : M3) (h : IsSU3 U) (n : ℕ) (hn : n ≤ 4) : su3_overrelax U (overrelaxCoeff n) 5 = U^n := by
  have hp : ∀ k, IsSU3 (U^k) := by
    intro k
    induction k with
    | zero => exact ⟨by simp, by simp⟩
    | succ k ih => rw [pow_succ]; exact su3_mul ih h
  unfold su3_overrelax
  rw [over_inv]
  have hU : U = 1 + (U - 1) := by simp
  have key : 1 + ∑ j ∈ Finset.range (5-2+1), (overrelaxCoeff n (j+1) : ℂ) • (U - 1)^(j+1) = U^n := by
    generalize hf : U - 1 = f
    have hU : U = 1 + f := by rw [← hf]; simp
    rw [hU]
    simp only [Finset.sum_range_succ, Finset.sum_range_zero, overrelaxCoeff]
    interval_cases n
    · simp
    · simp
    · norm_num; simp only [pow_two, two_smul]; noncomm_ring
    · norm_num
      have e3 : (3 : ℂ) • f = f + f + f := by rw [show (3:ℂ) = 1 + 1 + 1 by norm_num, add_smul, add_smul, one_smul]
      have e32 : (3 : ℂ) • f^2 = f^2 + f^2 + f^2 := by rw [show (3:ℂ) = 1 + 1 + 1 by norm_num, add_smul, add_smul, one_smul]
      rw [e3, e32]
      simp only [pow_succ, pow_zero]; noncomm_ring
    · norm_num
      have e4 : (4 : ℂ) • f = f + f + f + f := by rw [show (4:ℂ) = 1 + 1 + 1 + 1 by norm_num]; simp only [add_smul, one_smul]
      have e6 : (6 : ℂ) • f^2 = f^2 + f^2 + f^2 + f^2 + f^2 + f^2 := by
        rw [show (6:ℂ) = 1 + 1 + 1 + 1 + 1 + 1 by norm_num]; simp only [add_smul, one_smul]
      have e43 : (4 : ℂ) • f^3 = f^3 + f^3 + f^3 + f^3 := by rw [show (4:ℂ) = 1 + 1 + 1 + 1 by norm_num]; simp only [add_smul, one_smul]
      rw [e4, e6, e43]
      simp only [pow_succ, pow_zero]; noncomm_ring
  show su3_unitarize_orthonormalizing (1 + ∑ j ∈ Finset.range (5-2+1), (overrelaxCoeff n (j+1) : ℂ) • (U - 1)^(j+1)) = U^n
  rw [key]
  exact (C37_orthonormalizing _).2 (hp n)

/-! ### iterations -/

/-- When the loop for the square root ends, the result squared is the argument within the tolerance. -/
theorem C38_sqrt (y x0 x : M3) (fuel : ℕ) (h : sqrtLoop y fuel x0 = some x) : Real.sqrt (su3_norm2 (y - x * x)) ≤ 1e-15 := by
  induction fuel generalizing x0 with
  | zero => simp [sqrtLoop] at h
  | succ fuel ih =>
    unfold sqrtLoop at h
    dsimp only [] at h
    by_cases hc : (1e-15 : ℝ) < Real.sqrt (su3_norm2 (y - sqrtStep y x0 * sqrtStep y x0))
    · rw [if_pos hc] at h; exact ih _ h
    · rw [if_neg hc] at h
      have : sqrtStep y x0 = x := by simpa using h
      rw [← this]; exact not_lt.mp hc

theorem pow_third (z : ℂ) (hz : z ≠ 0) : complex_pow z (-1.0/3) ^ 3 * z = 1 := by
  have e : complex_pow z (-1.0/3) = (((z.re*z.re+z.im*z.im)^((-1.0/3 : ℝ)/2) : ℝ) : ℂ) * Complex.exp (((Complex.arg z * (-1.0/3) : ℝ) : ℂ) * I) := by
    rw [expm]
    unfold complex_pow
    apply Complex.ext <;> simp
  have hn : z.re*z.re+z.im*z.im = ‖z‖^2 := by rw [← Complex.normSq_eq_norm_sq, Complex.normSq_apply]
  have hp : 0 < ‖z‖ := norm_pos_iff.mpr hz
  rw [e, mul_pow, ← Complex.ofReal_pow, ← Complex.exp_nat_mul, hn]
  have h1 : ((‖z‖^2 : ℝ)^((-1.0/3 : ℝ)/2))^3 = ‖z‖⁻¹ := by
    rw [← Real.rpow_natCast, ← Real.rpow_natCast, ← Real.rpow_mul (by positivity), ← Real.rpow_mul (by positivity)]
    norm_num
    rw [Real.rpow_neg_one]
  rw [h1]
  conv_lhs => arg 2; rw [← Complex.norm_mul_exp_arg_mul_I z]
  have h2 : ((3 : ℕ) : ℂ) * (((Complex.arg z * (-1.0/3) : ℝ) : ℂ) * I) = -((Complex.arg z : ℂ) * I) := by
    push_cast; norm_num; ring
  rw [h2, Complex.exp_neg]
  have hE := Complex.exp_ne_zero ((Complex.arg z : ℂ) * I)
  have hc : (‖z‖ : ℂ) ≠ 0 := by exact_mod_cast hp.ne'
  push_cast
  field_simp

theorem norm2_entries (U : M3) : su3_norm2 U = ∑ i, ∑ j, normSq (U i j) := by
  simp [su3_norm2, color_norm2, Fin.sum_univ_three, Complex.normSq_apply]

theorem norm2_conj (U : M3) : su3_norm2 Uᴴ = su3_norm2 U := by
  simp only [norm2_entries, Matrix.conjTranspose_apply]
  rw [Finset.sum_comm]
  simp

theorem norm2_su3 (U : M3) (h : U * Uᴴ = 1) : su3_norm2 U = 3 := by
  have e : ∀ i, color_norm2 (U i) = 1 := by
    intro i
    have h1 := congrFun (congrFun h i) i
    rw [Matrix.mul_apply] at h1
    have := norm2_dot (U i)
    rw [show rowDot (U i) (U i) = _ from h1] at this
    simp at this
    exact_mod_cast this
  unfold su3_norm2; rw [e, e, e]; norm_num

/-- Unitarisation by averaging with the inverse: what is returned has determinant one (if it is not zero before the last
step), and a unitary matrix is only divided by the cubic root of its determinant, after a single turn. -/
theorem C37_explicitly_inverting (tol : ℝ) (htol : 0 ≤ tol) :
    (∀ (fuel : ℕ) (t V : M3), invertingLoop tol fuel t = some V → ∃ W : M3, V = complex_pow W.det (-1.0/3) • W ∧
      (W.det ≠ 0 → V.det = 1)) ∧
    (∀ (fuel : ℕ) (U : M3), U * Uᴴ = 1 →
      invertingLoop tol (fuel + 1) U = some (complex_pow U.det (-1.0/3) • U) ∧ IsSU3 (complex_pow U.det (-1.0/3) • U)) := by
  have hdet : ∀ W : M3, W.det ≠ 0 → (complex_pow W.det (-1.0/3) • W).det = 1 := by
    intro W hW
    rw [Matrix.det_smul]
    exact pow_third _ hW
  constructor
  · intro fuel
    induction fuel with
    | zero => intro t V h; simp [invertingLoop] at h
    | succ fuel ih =>
      intro t V h
      unfold invertingLoop at h
      dsimp only [] at h
      by_cases hc : tol < (invertingStep t).2
      · rw [if_pos hc] at h; exact ih _ _ h
      · rw [if_neg hc, det_eq] at h
        have hV : complex_pow (invertingStep t).1.det (-1.0/3) • (invertingStep t).1 = V := by simpa using h
        exact ⟨(invertingStep t).1, hV.symm, fun hne => by rw [← hV]; exact hdet _ hne⟩
  · intro fuel U hU
    have hinv := inverse_unitary U hU
    have hg : Real.sqrt (su3_norm2 (su3_explicit_inverse U) / su3_norm2 U) = 1 := by
      rw [hinv, norm2_conj, norm2_su3 U hU]; norm_num
    have hstep : (invertingStep U).1 = U := by
      unfold invertingStep
      dsimp only []
      rw [hg, hinv]
      ext i j
      rw [Matrix.of_apply, Matrix.conjTranspose_apply]
      apply Complex.ext
      · simp; ring
      · simp; ring
    have hres : (invertingStep U).2 = 0 := by
      show Real.sqrt (su3_norm2 ((invertingStep U).1 - U)) = 0
      rw [hstep, sub_self]
      simp [su3_norm2, color_norm2]
    have hd : U.det ≠ 0 := by
      intro h0
      have := congrArg Matrix.det hU
      rw [Matrix.det_mul, h0, zero_mul, Matrix.det_one] at this
      exact zero_ne_one this
    constructor
    · unfold invertingLoop
      dsimp only []
      rw [hres, if_neg (not_lt.mpr htol), hstep, det_eq]
    · refine ⟨?_, hdet U hd⟩
      rw [Matrix.conjTranspose_smul, Matrix.smul_mul, Matrix.mul_smul, hU, smul_smul]
      have h3 := pow_third U.det hd
      have hn : ‖U.det‖ = 1 := by
        have := congrArg Matrix.det hU
        rw [Matrix.det_mul, Matrix.det_conjTranspose, Matrix.det_one] at this
        have h2 := congrArg norm this
        rw [norm_mul, norm_star, norm_one] at h2
        nlinarith [norm_nonneg U.det]
      have hf : ‖complex_pow U.det (-1.0/3)‖ = 1 := by
        have h2 := congrArg norm h3
        rw [norm_mul, norm_pow, hn, mul_one, norm_one] at h2
        exact (pow_eq_one_iff_of_nonneg (norm_nonneg _) (by norm_num)).mp h2
      have : complex_pow U.det (-1.0/3) * star (complex_pow U.det (-1.0/3)) = 1 := by
        show _ * conj _ = 1
        rw [Complex.mul_conj, Complex.normSq_eq_norm_sq, hf]; norm_num
      rw [this, one_smul]

end Nissa.Su3f
