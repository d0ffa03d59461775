import Verif.Color.PropsSu3Sub
import Mathlib.Analysis.Matrix.Spectrum
import Mathlib.Analysis.SpecialFunctions.Exponential
import Mathlib.Analysis.Normed.Algebra.MatrixExponential
import Mathlib.Analysis.SpecialFunctions.Trigonometric.Basic

/-! # C38: the exponential of hermitian and antihermitian matrices -/

set_option linter.all false

namespace Nissa.Su3f

open Complex ComplexConjugate Matrix NormedSpace

/-- the numbers computed by the routine: `c0`, `c1`, `eps`, `w` -/
noncomputable def expC1 (Q : M3) : ℝ := su3_real_trace (Q * Q) / 2
noncomputable def expC0 (Q : M3) : ℝ := |su3_real_det Q|
noncomputable def expC0max (Q : M3) : ℝ := 2 * (expC1 Q / 3) ^ (1.5 : ℝ)
noncomputable def expEps (Q : M3) : ℝ := (expC0max Q - expC0 Q) / expC0max Q
noncomputable def expTheta (Q : M3) : ℝ := Real.arccos (expC0 Q / expC0max Q)
noncomputable def expW (Q : M3) : ℝ := Real.sqrt (expC1 Q) * Real.sin (expTheta Q / 3)
noncomputable def expU (Q : M3) : ℝ := Real.sqrt (expC1 Q / 3) * Real.cos (expTheta Q / 3)

/-- diagonalisation -/
theorem diag_exists (Q : M3) (h : Qᴴ = Q) : ∃ (W : M3) (d : Fin 3 → ℝ), W * Wᴴ = 1 ∧ Wᴴ * W = 1 ∧
    Q = W * diagonal (fun i => (d i : ℂ)) * Wᴴ := by
  have hQ : Q.IsHermitian := h
  refine ⟨(hQ.eigenvectorUnitary : M3), hQ.eigenvalues, ?_, ?_, ?_⟩
  · exact Unitary.coe_mul_star_self hQ.eigenvectorUnitary
  · exact Unitary.coe_star_mul_self hQ.eigenvectorUnitary
  · have := hQ.spectral_theorem
    rw [Unitary.conjStarAlgAut_apply] at this
    exact this

theorem poly_diag (W : M3) (D : Fin 3 → ℂ) (h : Wᴴ * W = 1) (h' : W * Wᴴ = 1) (a b c : ℂ) :
    a • (1 : M3) + b • (W * diagonal D * Wᴴ) + c • ((W * diagonal D * Wᴴ) * (W * diagonal D * Wᴴ)) =
    W * diagonal (fun i => a + b * D i + c * (D i * D i)) * Wᴴ := by
  have e2 : (W * diagonal D * Wᴴ) * (W * diagonal D * Wᴴ) = W * diagonal (fun i => D i * D i) * Wᴴ := by
    calc (W * diagonal D * Wᴴ) * (W * diagonal D * Wᴴ) = W * diagonal D * (Wᴴ * W) * diagonal D * Wᴴ := by
          simp only [Matrix.mul_assoc]
      _ = W * (diagonal D * diagonal D) * Wᴴ := by rw [h, Matrix.mul_one, Matrix.mul_assoc W]
      _ = _ := by rw [Matrix.diagonal_mul_diagonal]
  have e3 : diagonal (fun i => a + b * D i + c * (D i * D i)) =
      a • (1 : M3) + b • diagonal D + c • diagonal (fun i => D i * D i) := by
    ext i j
    by_cases hij : i = j
    · subst hij; simp
    · simp [hij]
  rw [e2, e3, Matrix.mul_add, Matrix.mul_add, Matrix.add_mul, Matrix.add_mul]
  simp only [Matrix.mul_smul, Matrix.smul_mul, Matrix.mul_one, h']

theorem exp_diag (W : M3) (D : Fin 3 → ℂ) (h : Wᴴ * W = 1) (h' : W * Wᴴ = 1) :
    exp (W * diagonal D * Wᴴ) = W * diagonal (fun i => Complex.exp (D i)) * Wᴴ := by
  have hu : IsUnit W := ⟨⟨W, Wᴴ, h', h⟩, rfl⟩
  have hi : W⁻¹ = Wᴴ := Matrix.inv_eq_right_inv h'
  rw [← hi, Matrix.exp_conj W _ hu, Matrix.exp_diagonal]
  congr 3
  funext i
  rw [Pi.coe_exp, ← Complex.exp_eq_exp_ℂ]

/-- the invariants in terms of the eigenvalues -/
theorem inv_diag (W : M3) (d : Fin 3 → ℝ) (h : Wᴴ * W = 1) (h' : W * Wᴴ = 1) :
    let Q := W * diagonal (fun i => (d i : ℂ)) * Wᴴ
    (Matrix.trace Q = ((d 0 + d 1 + d 2 : ℝ) : ℂ)) ∧ su3_real_det Q = d 0 * d 1 * d 2 ∧
    su3_real_trace (Q * Q) = d 0 * d 0 + d 1 * d 1 + d 2 * d 2 := by
  intro Q
  refine ⟨?_, ?_, ?_⟩
  · show Matrix.trace (W * diagonal (fun i => (d i : ℂ)) * Wᴴ) = _
    rw [Matrix.trace_mul_comm, ← Matrix.mul_assoc, h, Matrix.one_mul, Matrix.trace_diagonal, Fin.sum_univ_three]
    push_cast; ring
  · rw [C31_real_det]
    show (Matrix.det (W * diagonal (fun i => (d i : ℂ)) * Wᴴ)).re = _
    rw [Matrix.det_mul_right_comm, h', Matrix.one_mul, Matrix.det_diagonal, Fin.prod_univ_three]
    norm_cast
  · rw [trace_eq]
    have e := poly_diag W (fun i => (d i : ℂ)) h h' 0 0 1
    simp only [zero_smul, zero_add, one_smul, zero_mul, one_mul] at e
    show (Matrix.trace (Q * Q)).re = _
    rw [e, Matrix.trace_mul_comm, ← Matrix.mul_assoc, h, Matrix.one_mul, Matrix.trace_diagonal, Fin.sum_univ_three]
    norm_cast

/-- bound on the determinant of three numbers of vanishing sum -/
theorem c0_bound (a b c : ℝ) (h : a + b + c = 0) : 27 * (a*b*c)^2 ≤ 4 * ((a*a+b*b+c*c)/2)^3 := by
  have hc : c = -a-b := by linarith
  subst hc
  have : 4 * ((a*a+b*b+(-a-b)*(-a-b))/2)^3 - 27 * (a*b*(-a-b))^2 = ((a-b)*(2*a+b)*(a+2*b))^2 := by ring
  nlinarith [sq_nonneg ((a-b)*(2*a+b)*(a+2*b))]

theorem rpow15 (x : ℝ) (h : 0 ≤ x) : x ^ (1.5 : ℝ) = x * Real.sqrt x := by
  rw [show (1.5 : ℝ) = 1 + 1/2 by norm_num, Real.rpow_add_of_nonneg h (by norm_num) (by norm_num), Real.rpow_one,
    Real.sqrt_eq_rpow]

/-- trigonometric form of the roots -/
theorem roots (c1 c0 : ℝ) (h1 : 0 < c1) (h0 : 0 ≤ c0) (hb : 27 * c0^2 ≤ 4 * c1^3) :
    let c0m := 2 * (c1/3)^(1.5:ℝ)
    let θ := Real.arccos (c0 / c0m)
    let u := Real.sqrt (c1/3) * Real.cos (θ/3)
    let w := Real.sqrt c1 * Real.sin (θ/3)
    3*(u*u)+w*w = c1 ∧ 2*u*(u*u-w*w) = c0 ∧ 0 < 9*u*u-w*w ∧ 0 < c0m ∧ c0 ≤ c0m := by
  intro c0m θ u w
  have h13 : 0 ≤ c1/3 := by linarith
  have hs3 := Real.mul_self_sqrt h13
  have hs := Real.mul_self_sqrt h1.le
  have hsp : 0 < Real.sqrt (c1/3) := Real.sqrt_pos.mpr (by linarith)
  have hm : c0m = 2 * (c1/3 * Real.sqrt (c1/3)) := by show 2 * (c1/3)^(1.5:ℝ) = _; rw [rpow15 _ h13]
  have hmp : 0 < c0m := by rw [hm]; positivity
  have hle : c0 ≤ c0m := by
    by_contra hlt
    push Not at hlt
    have : c0m^2 < c0^2 := by nlinarith
    have e : 27 * c0m^2 = 4 * c1^3 := by
      rw [hm]
      calc 27 * (2 * (c1/3 * Real.sqrt (c1/3)))^2 = 12 * c1^2 * (Real.sqrt (c1/3) * Real.sqrt (c1/3)) := by ring
        _ = 4 * c1^3 := by rw [hs3]; ring
    linarith
  have hcos : Real.cos θ = c0 / c0m := by
    apply Real.cos_arccos
    · have : 0 ≤ c0 / c0m := div_nonneg h0 hmp.le
      linarith
    · exact (div_le_one hmp).mpr hle
  have hcs := Real.sin_sq_add_cos_sq (θ/3)
  have h3 : Real.cos θ = 4 * Real.cos (θ/3)^3 - 3 * Real.cos (θ/3) := by
    rw [← Real.cos_three_mul]; congr 1; ring
  have e1 : 3*(u*u)+w*w = c1 := by
    show 3*((Real.sqrt (c1/3) * Real.cos (θ/3))*(Real.sqrt (c1/3) * Real.cos (θ/3))) +
      (Real.sqrt c1 * Real.sin (θ/3))*(Real.sqrt c1 * Real.sin (θ/3)) = c1
    calc _ = 3 * (Real.sqrt (c1/3) * Real.sqrt (c1/3)) * Real.cos (θ/3)^2 + (Real.sqrt c1 * Real.sqrt c1) * Real.sin (θ/3)^2 := by ring
      _ = c1 * (Real.sin (θ/3)^2 + Real.cos (θ/3)^2) := by rw [hs3, hs]; ring
      _ = c1 := by rw [hcs, mul_one]
  have e2 : 2*u*(u*u-w*w) = c0 := by
    have hw : w*w = c1 - 3*(u*u) := by linarith
    rw [hw]
    have hu2 : u*u = c1/3 * Real.cos (θ/3)^2 := by
      show (Real.sqrt (c1/3) * Real.cos (θ/3))*(Real.sqrt (c1/3) * Real.cos (θ/3)) = _
      calc _ = (Real.sqrt (c1/3) * Real.sqrt (c1/3)) * Real.cos (θ/3)^2 := by ring
        _ = _ := by rw [hs3]
    rw [hu2]
    show 2 * (Real.sqrt (c1/3) * Real.cos (θ/3)) * _ = c0
    have : c0 = c0m * Real.cos θ := by rw [hcos]; field_simp
    rw [this, h3, hm]; ring
  refine ⟨e1, e2, ?_, hmp, hle⟩
  have hw : w*w = c1 - 3*(u*u) := by linarith
  have hθ0 : 0 ≤ θ := Real.arccos_nonneg _
  have hθ1 : θ ≤ Real.pi / 2 := by
    rw [show θ = Real.arccos (c0/c0m) from rfl, Real.arccos_le_pi_div_two]
    exact div_nonneg h0 hmp.le
  have hc : Real.sqrt 3 / 2 ≤ Real.cos (θ/3) := by
    rw [← Real.cos_pi_div_six]
    apply Real.cos_le_cos_of_nonneg_of_le_pi
    · linarith
    · linarith [Real.pi_pos]
    · linarith
  have h3s : Real.sqrt 3 * Real.sqrt 3 = 3 := Real.mul_self_sqrt (by norm_num)
  have hc2 : 3/4 ≤ Real.cos (θ/3)^2 := by
    have h3p : 0 ≤ Real.sqrt 3 := Real.sqrt_nonneg 3
    nlinarith
  have hu2 : u*u = c1/3 * Real.cos (θ/3)^2 := by
    show (Real.sqrt (c1/3) * Real.cos (θ/3))*(Real.sqrt (c1/3) * Real.cos (θ/3)) = _
    calc _ = (Real.sqrt (c1/3) * Real.sqrt (c1/3)) * Real.cos (θ/3)^2 := by ring
      _ = _ := by rw [hs3]
  nlinarith


theorem expm (x : ℝ) : Complex.exp ((x : ℂ) * I) = ⟨Real.cos x, Real.sin x⟩ := by
  apply Complex.ext
  · exact Complex.exp_ofReal_mul_I_re x
  · exact Complex.exp_ofReal_mul_I_im x

/-- the value of the interpolating polynomial on the three roots; `xi*w=sin w` -/
theorem interp (u w xi : ℝ) (hx : xi * w = Real.sin w) (hf : 9*u*u-w*w ≠ 0) (t : ℝ)
    (ht : t = 2*u ∨ t = -u+w ∨ t = -u-w) :
    let h0 : ℂ := ⟨(u*u-w*w)*Real.cos (2*u)+Real.cos u*8*(u*u)*Real.cos w+2*Real.sin u*u*(w*w+3*(u*u))*xi,
      (u*u-w*w)*Real.sin (2*u)+ -Real.sin u*8*(u*u)*Real.cos w+Real.cos u*2*u*(w*w+3*(u*u))*xi⟩
    let h1 : ℂ := ⟨2*u*Real.cos (2*u)+ -Real.cos u*2*u*Real.cos w+ -Real.sin u*(w*w-3*(u*u))*xi,
      2*u*Real.sin (2*u)+Real.sin u*2*u*Real.cos w+ -Real.cos u*(w*w-3*(u*u))*xi⟩
    let h2 : ℂ := ⟨Real.cos (2*u)+ -Real.cos u*Real.cos w+ -3*Real.sin u*u*xi,
      Real.sin (2*u)+Real.sin u*Real.cos w+ -Real.cos u*3*u*xi⟩
    let fact := 1/(9*u*u-w*w)
    h0 * (fact : ℂ) + h1 * (fact : ℂ) * (t : ℂ) + h2 * (fact : ℂ) * ((t : ℂ) * (t : ℂ)) = Complex.exp ((t : ℂ) * I) := by
  intro h0 h1 h2 fact
  have key : h0 + h1 * (t : ℂ) + h2 * ((t : ℂ) * (t : ℂ)) = ((9*u*u-w*w : ℝ) : ℂ) * Complex.exp ((t : ℂ) * I) := by
    rw [expm t]
    have hw : Real.sin w = xi * w := hx.symm
    have cu := Real.cos_add (-u) w
    rcases ht with rfl | rfl | rfl
    · apply Complex.ext <;> simp [h0, h1, h2] <;> ring
    · have c : Real.cos (-u+w) = Real.cos u * Real.cos w + Real.sin u * (xi * w) := by
        rw [Real.cos_add, Real.cos_neg, Real.sin_neg, hw]; ring
      have s : Real.sin (-u+w) = -Real.sin u * Real.cos w + Real.cos u * (xi * w) := by
        rw [Real.sin_add, Real.cos_neg, Real.sin_neg, hw]
      rw [c, s]
      apply Complex.ext <;> simp [h0, h1, h2] <;> ring
    · have c : Real.cos (-u-w) = Real.cos u * Real.cos w - Real.sin u * (xi * w) := by
        rw [Real.cos_sub, Real.cos_neg, Real.sin_neg, hw]; ring
      have s : Real.sin (-u-w) = -Real.sin u * Real.cos w - Real.cos u * (xi * w) := by
        rw [Real.sin_sub, Real.cos_neg, Real.sin_neg, hw]
      rw [c, s]
      apply Complex.ext <;> simp [h0, h1, h2] <;> ring
  have hne : ((9*u*u-w*w : ℝ) : ℂ) ≠ 0 := by exact_mod_cast hf
  have hfact : (fact : ℂ) * ((9*u*u-w*w : ℝ) : ℂ) = 1 := by
    rw [← Complex.ofReal_mul]
    have : fact * (9*u*u-w*w) = 1 := one_div_mul_cancel hf
    rw [this]; simp
  calc h0 * (fact : ℂ) + h1 * (fact : ℂ) * (t : ℂ) + h2 * (fact : ℂ) * ((t : ℂ) * (t : ℂ))
      = (fact : ℂ) * (h0 + h1 * (t : ℂ) + h2 * ((t : ℂ) * (t : ℂ))) := by ring
    _ = ((fact : ℂ) * ((9*u*u-w*w : ℝ) : ℂ)) * Complex.exp ((t : ℂ) * I) := by rw [key]; ring
    _ = Complex.exp ((t : ℂ) * I) := by rw [hfact, one_mul]

/-- the three coefficients before the change of sign -/
noncomputable def expF (u w xi : ℝ) : ℂ × ℂ × ℂ :=
    let h0 : ℂ := ⟨(u*u-w*w)*Real.cos (2*u)+Real.cos u*8*(u*u)*Real.cos w+2*Real.sin u*u*(w*w+3*(u*u))*xi,
      (u*u-w*w)*Real.sin (2*u)+ -Real.sin u*8*(u*u)*Real.cos w+Real.cos u*2*u*(w*w+3*(u*u))*xi⟩
    let h1 : ℂ := ⟨2*u*Real.cos (2*u)+ -Real.cos u*2*u*Real.cos w+ -Real.sin u*(w*w-3*(u*u))*xi,
      2*u*Real.sin (2*u)+Real.sin u*2*u*Real.cos w+ -Real.cos u*(w*w-3*(u*u))*xi⟩
    let h2 : ℂ := ⟨Real.cos (2*u)+ -Real.cos u*Real.cos w+ -3*Real.sin u*u*xi,
      Real.sin (2*u)+Real.sin u*Real.cos w+ -Real.cos u*3*u*xi⟩
    let fact := 1/(9*u*u-w*w)
    (h0 * (fact : ℂ), h1 * (fact : ℂ), h2 * (fact : ℂ))

/-- an eigenvalue is one of the three roots -/
theorem root_of (d : Fin 3 → ℝ) (hs : d 0 + d 1 + d 2 = 0) (u w : ℝ) (h1 : 3*(u*u)+w*w = (d 0*d 0+d 1*d 1+d 2*d 2)/2)
    (h0 : 2*u*(u*u-w*w) = d 0 * d 1 * d 2) (i : Fin 3) : d i = 2*u ∨ d i = -u+w ∨ d i = -u-w := by
  have h2 : d 2 = -d 0 - d 1 := by linarith
  have cub : d i * d i * d i - (3*(u*u)+w*w) * d i - 2*u*(u*u-w*w) = 0 := by
    rw [h1, h0, h2]
    fin_cases i
    · show d 0 * d 0 * d 0 - _ * d 0 - _ = 0; ring
    · show d 1 * d 1 * d 1 - _ * d 1 - _ = 0; ring
    · show d 2 * d 2 * d 2 - _ * d 2 - _ = 0; rw [h2]; ring
  have fac : (d i - 2*u) * ((d i - (-u+w)) * (d i - (-u-w))) = 0 := by linear_combination cub
  rcases mul_eq_zero.mp fac with h | h
  · left; linarith
  · rcases mul_eq_zero.mp h with h | h
    · right; left; linarith
    · right; right; linarith

/-- The exponential: for every hermitian traceless `Q`, the routine returns `exp(iQ)`, unless it goes in one of the
branches using truncated series (`c1` or `eps` or `w` small). -/
theorem C38_exponential (Q : M3) (hh : Qᴴ = Q) (ht : Matrix.trace Q = 0)
    (hc1 : 4e-3 ≤ expC1 Q) (heps : 1e-3 ≤ expEps Q) (hw : 0.05 ≤ |expW Q|) :
    hermitian_exact_i_exponentiate Q = exp (I • Q) := by
  obtain ⟨W, d, hW', hW, hQ⟩ := diag_exists Q hh
  have inv := inv_diag W d hW hW'
  rw [← hQ] at inv
  obtain ⟨itr, idet, itr2⟩ := inv
  have hs : d 0 + d 1 + d 2 = 0 := by rw [ht] at itr; exact_mod_cast itr.symm
  have hc1p : 0 < expC1 Q := lt_of_lt_of_le (by norm_num) hc1
  have hc1e : expC1 Q = (d 0*d 0+d 1*d 1+d 2*d 2)/2 := by unfold expC1; rw [itr2]
  have hbnd : 27 * (expC0 Q)^2 ≤ 4 * (expC1 Q)^3 := by
    unfold expC0; rw [sq_abs, hc1e, idet]; exact c0_bound _ _ _ hs
  obtain ⟨r1, r2, r3, r4, r5⟩ := roots (expC1 Q) (expC0 Q) hc1p (abs_nonneg _) hbnd
  change 3*(expU Q*expU Q)+expW Q*expW Q = expC1 Q at r1
  change 2*expU Q*(expU Q*expU Q-expW Q*expW Q) = expC0 Q at r2
  change 0 < 9*expU Q*expU Q-expW Q*expW Q at r3
  have hwne : expW Q ≠ 0 := by intro h0; rw [h0] at hw; norm_num at hw
  have hxi : Real.sin (expW Q) / expW Q * expW Q = Real.sin (expW Q) := div_mul_cancel₀ _ hwne
  have nc1 : ¬(su3_real_trace (Q * Q) / 2 < 4e-3) := not_lt.mpr hc1
  have ne0 : ¬(expEps Q < 0) := by linarith [show (0:ℝ) < 1e-3 by norm_num]
  have ne1 : ¬(expEps Q < 1e-3) := not_lt.mpr heps
  have nw : ¬(|expW Q| < 0.05) := not_lt.mpr hw
  have target : ∀ f : ℂ × ℂ × ℂ, prepareIngredients Q = f →
      (∀ i, f.1 + f.2.1 * (d i : ℂ) + f.2.2 * ((d i : ℂ) * (d i : ℂ)) = Complex.exp ((d i : ℂ) * I)) →
      hermitian_exact_i_exponentiate Q = exp (I • Q) := by
    intro f hf hall
    have e : I • Q = W * diagonal (fun i => (d i : ℂ) * I) * Wᴴ := by
      rw [hQ, ← Matrix.smul_mul, ← Matrix.mul_smul]
      congr 2
      ext i j
      by_cases hij : i = j
      · subst hij; simp [mul_comm]
      · simp [hij]
    rw [e, exp_diag W _ hW hW']
    unfold hermitian_exact_i_exponentiate
    dsimp only []
    rw [hf]
    conv_lhs => rw [hQ]
    rw [poly_diag W _ hW hW']
    congr 3
    funext i
    exact hall i
  by_cases hneg : su3_real_det Q < 0
  · have habs : expC0 Q = -su3_real_det Q := abs_of_neg hneg
    have root : ∀ i, -(d i) = 2*expU Q ∨ -(d i) = -expU Q+expW Q ∨ -(d i) = -expU Q-expW Q := by
      intro i
      exact root_of (fun k => -(d k)) (by show -(d 0) + -(d 1) + -(d 2) = 0; linarith) _ _
        (by show _ = (-(d 0)*-(d 0)+-(d 1)*-(d 1)+-(d 2)*-(d 2))/2; rw [r1, hc1e]; ring)
        (by show _ = -(d 0)*-(d 1)*-(d 2); rw [r2, habs, idet]; ring) i
    have it := fun i => interp (expU Q) (expW Q) _ hxi r3.ne' (-(d i)) (root i)
    have hp : prepareIngredients Q = (⟨(expF (expU Q) (expW Q) (Real.sin (expW Q) / expW Q)).1.re, -(expF (expU Q) (expW Q) (Real.sin (expW Q) / expW Q)).1.im⟩, ⟨-(expF (expU Q) (expW Q) (Real.sin (expW Q) / expW Q)).2.1.re, (expF (expU Q) (expW Q) (Real.sin (expW Q) / expW Q)).2.1.im⟩, ⟨(expF (expU Q) (expW Q) (Real.sin (expW Q) / expW Q)).2.2.re, -(expF (expU Q) (expW Q) (Real.sin (expW Q) / expW Q)).2.2.im⟩) := by
      unfold prepareIngredients
      dsimp only []
      rw [if_neg nc1]
      simp only [if_pos hneg, decide_eq_true hneg, if_true]
      rw [← habs]
      simp only [show (2 * (su3_real_trace (Q * Q) / 2 / 3) ^ (1.5:ℝ) - expC0 Q) / (2 * (su3_real_trace (Q * Q) / 2 / 3) ^ (1.5:ℝ)) = expEps Q from rfl,
        if_neg ne0, if_neg ne1]
      simp only [show Real.sqrt (su3_real_trace (Q * Q) / 2) * Real.sin (Real.arccos (expC0 Q / (2 * (su3_real_trace (Q * Q) / 2 / 3) ^ (1.5:ℝ))) / 3) = expW Q from rfl,
        show Real.sqrt (su3_real_trace (Q * Q) / 2 / 3) * Real.cos (Real.arccos (expC0 Q / (2 * (su3_real_trace (Q * Q) / 2 / 3) ^ (1.5:ℝ))) / 3) = expU Q from rfl,
        if_neg nw]
      first | done | rfl
    refine target _ hp ?_
    intro i
    have := congrArg conj (it i)
    have hr : conj (Complex.exp (((-(d i) : ℝ) : ℂ) * I)) = Complex.exp ((d i : ℂ) * I) := by
      rw [← Complex.exp_conj, map_mul, Complex.conj_I, Complex.conj_ofReal]
      congr 1; push_cast; ring
    rw [hr] at this
    rw [← this]
    show _ = conj ((expF (expU Q) (expW Q) (Real.sin (expW Q) / expW Q)).1 + (expF (expU Q) (expW Q) (Real.sin (expW Q) / expW Q)).2.1 * ((-(d i) : ℝ) : ℂ)
      + (expF (expU Q) (expW Q) (Real.sin (expW Q) / expW Q)).2.2 * (((-(d i) : ℝ) : ℂ) * ((-(d i) : ℝ) : ℂ)))
    generalize expF (expU Q) (expW Q) (Real.sin (expW Q) / expW Q) = f
    apply Complex.ext <;> simp <;> ring
  · have habs : expC0 Q = su3_real_det Q := abs_of_nonneg (not_lt.mp hneg)
    have root : ∀ i, d i = 2*expU Q ∨ d i = -expU Q+expW Q ∨ d i = -expU Q-expW Q := by
      intro i
      exact root_of d hs _ _ (by rw [r1, hc1e]) (by rw [r2, habs, idet]) i
    have it := fun i => interp (expU Q) (expW Q) _ hxi r3.ne' (d i) (root i)
    have hp : prepareIngredients Q = expF (expU Q) (expW Q) (Real.sin (expW Q) / expW Q) := by
      unfold prepareIngredients
      dsimp only []
      rw [if_neg nc1]
      simp only [if_neg hneg, decide_eq_false hneg]
      rw [← habs]
      simp only [show (2 * (su3_real_trace (Q * Q) / 2 / 3) ^ (1.5:ℝ) - expC0 Q) / (2 * (su3_real_trace (Q * Q) / 2 / 3) ^ (1.5:ℝ)) = expEps Q from rfl,
        if_neg ne0, if_neg ne1]
      simp only [show Real.sqrt (su3_real_trace (Q * Q) / 2) * Real.sin (Real.arccos (expC0 Q / (2 * (su3_real_trace (Q * Q) / 2 / 3) ^ (1.5:ℝ))) / 3) = expW Q from rfl,
        show Real.sqrt (su3_real_trace (Q * Q) / 2 / 3) * Real.cos (Real.arccos (expC0 Q / (2 * (su3_real_trace (Q * Q) / 2 / 3) ^ (1.5:ℝ))) / 3) = expU Q from rfl,
        if_neg nw]
      first | done | rfl
    refine target _ hp ?_
    intro i
    exact it i

end Nissa.Su3f
