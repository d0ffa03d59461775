import Verif.FreeTheory.Quark
import Mathlib.LinearAlgebra.Matrix.NonsingularInverse

/-! # C54: free quarks -/

set_option linter.all false

namespace Nissa.Free
open Nissa.Lx Nissa.Sten Nissa.Gamma Nissa.Wilson Nissa.StD Matrix Complex

abbrev M4 := Matrix (Fin 4) (Fin 4) ℂ

theorem diag_eq (b : ℝ) : putToDiag b = (b : ℂ) • (1 : M4) := by
  ext i j
  fin_cases i <;> fin_cases j <;> simp [putToDiag, foldl4, setEl, putToZero] <;> rfl

theorem sum_double (o : SpinSpin ℂ) (a : DiracMatr ℂ) (r : ℝ) : summProdDouble o a r = o + (r : ℂ) • dense a := by
  rw [← (C30_dense_ops a o 0 (r : ℂ)).2.2.2.2.2.2.1]
  unfold summProdDouble summTheProdComplex
  congr 1
  funext m ig
  congr 2
  apply Complex.ext <;> simp

theorem sum_idouble (o : SpinSpin ℂ) (a : DiracMatr ℂ) (r : ℝ) : summProdIdouble o a r = o + (I * r) • dense a := by
  rw [← (C30_dense_ops a o 0 (I * r)).2.2.2.2.2.2.1]
  unfold summProdIdouble summTheProdComplex
  congr 1
  funext m ig
  congr 2
  apply Complex.ext <;> simp

/-- scalar plus vector plus pseudoscalar -/
noncomputable def cl (c : ℂ) (x : Dir → ℂ) (y : ℂ) : M4 := c • 1 + ∑ mu, x mu • γdir mu + y • Γ 5

theorem cl_explicit (c : ℂ) (x : Dir → ℂ) (y : ℂ) : cl c x y =
    !![c + y, 0, -x 0 - I * x 3, -I * x 1 - x 2;
       0, c + y, -I * x 1 + x 2, -x 0 + I * x 3;
       -x 0 + I * x 3, I * x 1 + x 2, c - y, 0;
       I * x 1 - x 2, -x 0 - I * x 3, 0, c - y] := by
  unfold cl
  rw [Fin.sum_univ_four, g0, g1, g2, g3, g5]
  ext i j
  fin_cases i <;> fin_cases j <;> simp <;> ring

theorem cl_mul (c : ℂ) (x : Dir → ℂ) (y : ℂ) : cl c x y * cl c (-x) (-y) = (c ^ 2 - ∑ mu, x mu ^ 2 - y ^ 2) • 1 := by
  rw [cl_explicit, cl_explicit, Fin.sum_univ_four]
  ext i j
  fin_cases i <;> fin_cases j <;> simp [Matrix.mul_apply, Fin.sum_univ_four] <;> ring_nf <;> try simp only [I_sq] <;> try ring

theorem cl_mul' (c : ℂ) (x : Dir → ℂ) (y : ℂ) : cl c (-x) (-y) * cl c x y = (c ^ 2 - ∑ mu, x mu ^ 2 - y ^ 2) • 1 := by
  have := cl_mul c (-x) (-y)
  simp only [neg_neg, Pi.neg_apply, neg_sq] at this
  exact this

theorem cl_smul (a c : ℂ) (x : Dir → ℂ) (y : ℂ) : a • cl c x y = cl (a * c) (a • x) (a * y) := by
  unfold cl
  rw [smul_add, smul_add, Finset.smul_sum]
  simp only [smul_smul, Pi.smul_apply, smul_eq_mul]

theorem cl_isUnit (c : ℂ) (x : Dir → ℂ) (y : ℂ) : IsUnit (cl c x y) ↔ c ^ 2 - ∑ mu, x mu ^ 2 - y ^ 2 ≠ 0 := by
  set s := c ^ 2 - ∑ mu, x mu ^ 2 - y ^ 2 with hs
  constructor
  · intro h h0
    have e := cl_mul c x y
    rw [← hs, h0, zero_smul] at e
    have z : cl c (-x) (-y) = 0 := by
      have := h.mul_left_cancel (a := cl c x y) (b := cl c (-x) (-y)) (c := 0) (by rw [e, mul_zero])
      exact this
    have e1 : cl c x y = 0 := by
      rw [cl_explicit] at z ⊢
      have f := fun i j => congrFun (congrFun z i) j
      have h00 := f 0 0
      have h22 := f 2 2
      have h02 := f 0 2
      have h13 := f 1 3
      have h03 := f 0 3
      have h12 := f 1 2
      simp at h00 h22 h02 h13 h03 h12
      have hc : c = 0 := by linear_combination (h00 + h22) / 2
      have hy : y = 0 := by linear_combination (h22 - h00) / 2
      have hx0 : x 0 = 0 := by linear_combination (h02 + h13) / 2
      have hx3 : I * x 3 = 0 := by linear_combination (h02 - h13) / 2
      have hx2 : x 2 = 0 := by linear_combination (h03 - h12) / 2
      have hx1 : I * x 1 = 0 := by linear_combination (h03 + h12) / 2
      have hx3' : x 3 = 0 := by simpa using hx3
      have hx1' : x 1 = 0 := by simpa using hx1
      ext i j
      fin_cases i <;> fin_cases j <;> simp [hc, hy, hx0, hx1', hx2, hx3']
    rw [e1] at h
    exact not_isUnit_zero h
  · intro h
    refine IsUnit.of_mul_eq_one (s⁻¹ • cl c (-x) (-y)) ?_
    rw [Matrix.mul_smul, cl_mul, smul_smul, ← hs, inv_mul_cancel₀ h, one_smul]

/-! ## Half angles -/

theorem one_sub_cos (z : ℂ) : 1 - Complex.cos z = 2 * Complex.sin (z / 2) ^ 2 := by
  have h := Complex.cos_sq_add_sin_sq (z / 2)
  have h2 := Complex.cos_two_mul (z / 2)
  rw [mul_div_cancel₀ z (two_ne_zero)] at h2
  rw [h2]; linear_combination -2 * h

/-- the Wilson mass for given momentum -/
noncomputable def wm (m0 : ℝ) (p : Dir → ℂ) : ℂ := m0 + ∑ nu, (1 - Complex.cos (p nu))

theorem wilsonD_cl (m0 mu : ℝ) (p : Dir → ℂ) : wilsonD m0 mu p = cl (wm m0 p) (fun nu => I * Complex.sin (p nu)) (I * mu) := by
  unfold wilsonD cl wm
  rw [Finset.sum_add_distrib, add_smul, Finset.sum_smul]
  abel

theorem twist_cl (t : ℝ) (ht : t * t = 1) (c : ℂ) (x : Dir → ℂ) (m : ℂ) :
    twistR t * cl c x (I * (t * m)) * twistR t = cl m x (I * (-c * t)) := by
  have hs : ((Real.sqrt 2 : ℝ) : ℂ) * (Real.sqrt 2 : ℝ) = 2 := by rw [← Complex.ofReal_mul, Real.mul_self_sqrt (by norm_num)]; norm_num
  have hs0 : ((Real.sqrt 2 : ℝ) : ℂ) ≠ 0 := fun h => by rw [h] at hs; norm_num at hs
  have ht' : (t : ℂ) * t = 1 := by rw [← Complex.ofReal_mul, ht]; rfl
  unfold twistR
  rw [Matrix.smul_mul, Matrix.smul_mul, Matrix.mul_smul, smul_smul]
  have e : (1 / (Real.sqrt 2 : ℂ)) * (1 / (Real.sqrt 2 : ℂ)) = 1 / 2 := by field_simp; rw [sq]; exact hs.symm
  rw [show (1 / ((Real.sqrt 2 : ℝ) : ℂ)) * (1 / ((Real.sqrt 2 : ℝ) : ℂ)) = 1 / 2 from e]
  rw [cl_explicit, cl_explicit, g5]
  have hI : I ^ 2 = -1 := I_sq
  have ht2 : (t : ℂ) ^ 2 = 1 := by rw [sq]; exact ht'
  have k1 : ∀ w : ℂ, 2⁻¹ * ((1 - I * t) * w * (1 + I * t)) = w := fun w => by
    linear_combination (-(w / 2) * t ^ 2) * hI + (w / 2) * ht2
  have k2 : ∀ w : ℂ, 2⁻¹ * ((1 + I * t) * w * (1 - I * t)) = w := fun w => by
    linear_combination (-(w / 2) * t ^ 2) * hI + (w / 2) * ht2
  have d1 : ∀ w : ℂ, 2⁻¹ * ((1 - I * t) * (w + I * (t * m)) * (1 - I * t)) = m + -(I * (w * t)) := fun w => by
    linear_combination (w * t ^ 2 / 2 - m * t ^ 2 + I * m * t ^ 3 / 2) * hI + (-w / 2 + m - I * m * t / 2) * ht2
  have d2 : ∀ w : ℂ, 2⁻¹ * ((1 + I * t) * (w - I * (t * m)) * (1 + I * t)) = m + I * (w * t) := fun w => by
    linear_combination (w * t ^ 2 / 2 - m * t ^ 2 - I * m * t ^ 3 / 2) * hI + (-w / 2 + m + I * m * t / 2) * ht2
  ext i j
  fin_cases i <;> fin_cases j <;> simp [Matrix.mul_apply, Fin.sum_univ_four]
  · exact d1 c
  · exact k1 _
  · exact k1 _
  · exact d1 c
  · exact k1 _
  · exact k1 _
  · exact k2 _
  · exact k2 _
  · exact d2 c
  · exact k2 _
  · exact k2 _
  · exact d2 c


theorem tau_sq (r : Fin 2) : tau3 r * tau3 r = 1 := by fin_cases r <;> simp [tau3]

theorem rSign_eq (r : Fin 2) : rSign r = tau3 r := by fin_cases r <;> simp [tau3, rSign]

/-- the quark operator in components -/
theorem quarkD_cl (qu : Quark) (base : Base) (p : Dir → ℂ) : quarkD qu base p =
    cl (match base with | .wilson => wm (1 / (2 * qu.kappa) - 4) p | .maxTwist => (qu.mass : ℂ)) (fun nu => I * Complex.sin (p nu))
      (I * (match base with | .wilson => ((tau3 qu.r : ℝ) : ℂ) * qu.mass | .maxTwist => -wm (1 / (2 * qu.kappa) - 4) p * (tau3 qu.r : ℝ))) := by
  cases base with
  | wilson =>
    unfold quarkD
    simp only [rSign_eq]
    rw [wilsonD_cl]; push_cast; rfl
  | maxTwist =>
    unfold quarkD
    simp only [rSign_eq]
    rw [wilsonD_cl]
    push_cast
    exact twist_cl (tau3 qu.r) (tau_sq qu.r) _ _ _

/-- the square which decides whether the quark operator is invertible -/
theorem quarkD_unit (qu : Quark) (base : Base) (p : Dir → ℂ) : IsUnit (quarkD qu base p) ↔
    wm (1 / (2 * qu.kappa) - 4) p ^ 2 + (qu.mass : ℂ) ^ 2 + ∑ nu, Complex.sin (p nu) ^ 2 ≠ 0 := by
  have ht : ((tau3 qu.r : ℝ) : ℂ) ^ 2 = 1 := by rw [sq, ← Complex.ofReal_mul, tau_sq]; rfl
  rw [quarkD_cl, cl_isUnit]
  simp only [mul_pow, I_sq]
  rw [← Finset.mul_sum]
  cases base <;> simp only
  · rw [mul_pow, ht, show ∀ a b m : ℂ, a ^ 2 - -1 * b - -1 * (1 * m) = a ^ 2 + m + b from fun a b m => by ring]
  · rw [mul_pow, ht, show ∀ a b m : ℂ, m - -1 * b - -1 * ((-a) ^ 2 * 1) = a ^ 2 + m + b from fun a b m => by ring]

/-- the momentum of coordinates `c` -/
noncomputable def momP (L : Coords) (qu : Quark) (c : Coords) : Dir → ℝ := fun mu => lattMom (c mu) (qu.bc mu) (L mu)

theorem component_eq (L : Coords) (qu : Quark) (c : Coords) :
    (∀ mu, (get_component L qu c).1 mu = Real.sin (momP L qu c mu)) ∧
    (get_component L qu c).2.1 = ∑ mu, Real.sin (momP L qu c mu) ^ 2 ∧
    (get_component L qu c).2.2 = ∑ mu, Real.sin (momP L qu c mu / 2) ^ 2 := by
  refine ⟨fun mu => ?_, ?_, ?_⟩
  · fin_cases mu <;> simp [get_component, dirs, componentStep, momP, lattMom]
  · simp only [get_component, dirs, componentStep, momP, lattMom, List.foldl_cons, List.foldl_nil, Fin.sum_univ_four]; ring
  · simp only [get_component, dirs, componentStep, momP, lattMom, List.foldl_cons, List.foldl_nil, Fin.sum_univ_four]; ring

theorem wm_real (m0 : ℝ) (p : Dir → ℝ) : wm m0 (fun mu => (p mu : ℂ)) = ((m0 + 2 * ∑ mu, Real.sin (p mu / 2) ^ 2 : ℝ) : ℂ) := by
  unfold wm
  simp only [one_sub_cos]
  push_cast
  rw [Finset.mul_sum]

theorem m0_eq (k : ℝ) : m0_of_kappa k = 1 / (2 * k) - 4 := by
  unfold m0_of_kappa
  rw [show (0.5 : ℝ) = 1 / 2 from by norm_num, div_div]

theorem foldI (f : Dir → ℝ) (o : SpinSpin ℂ) : dirs.foldl (fun o mu => summProdIdouble o (baseGamma (iGammaOfMu mu)) (f mu)) o =
    o + ∑ mu, (I * f mu) • γdir mu := by
  simp only [dirs, List.foldl_cons, List.foldl_nil, sum_idouble]
  rw [Fin.sum_univ_four]
  simp only [add_assoc]

/-- C54: the momentum-space operator is, in both bases and for every momentum and boundary condition, the lattice Wilson operator with the
twisted mass of the flavour, rotated of a quarter of turn in the physical basis -/
theorem C54_operator (L : Coords) (qu : Quark) (c : Coords) (base : Base) :
    twisted_operator L qu c base = quarkD qu base (fun mu => (lattMom (c mu) (qu.bc mu) (L mu) : ℂ)) := by
  have hc := component_eq L qu c
  rw [quarkD_cl]
  unfold twisted_operator
  simp only
  rw [foldI, sum_idouble, diag_eq, hc.2.2, m0_eq]
  simp only [hc.1]
  rw [show (fun mu => (lattMom (c mu) (qu.bc mu) (L mu) : ℂ)) = fun mu => ((momP L qu c mu : ℝ) : ℂ) from rfl, wm_real]
  unfold cl
  simp only [Complex.ofReal_sin]
  cases base <;> simp only <;> push_cast <;> congr 2 <;> ring

/-- when the zero-mode prescription is used -/
def IsZeroMode (qu : Quark) (c : Coords) : Prop :=
  |qu.mass| < 1e-14 ∧ |qu.kappa - 1 / 8| < 1e-14 ∧ (∀ mu, |qu.bc mu| < 1e-14) ∧ ∀ mu, c mu = 0

theorem zm_iff (qu : Quark) (c : Coords) : zm_sub qu c = true ↔ IsZeroMode qu c := by
  unfold zm_sub IsZeroMode tol
  simp only [dirs, List.foldl_cons, List.foldl_nil, Fin.forall_fin_succ]
  norm_num
  constructor
  · intro h
    obtain ⟨⟨⟨⟨⟨⟨a, b⟩, c1⟩, c2⟩, c3⟩, c4⟩, d1, ⟨d2, d3⟩, d4⟩ := h
    exact ⟨a, b, ⟨c1, c2, c3, c4⟩, d1, d2, d3, d4⟩
  · rintro ⟨a, b, ⟨c1, c2, c3, c4⟩, d1, d2, d3, d4⟩
    exact ⟨⟨⟨⟨⟨⟨a, b⟩, c1⟩, c2⟩, c3⟩, c4⟩, d1, ⟨d2, d3⟩, d4⟩

theorem real_sq_cast (a b : ℝ) (f : Dir → ℝ) : (a : ℂ) ^ 2 + (b : ℂ) ^ 2 + ∑ nu, ((f nu : ℝ) : ℂ) ^ 2 = ((a ^ 2 + b ^ 2 + ∑ nu, f nu ^ 2 : ℝ) : ℂ) := by
  push_cast; rfl

/-- coefficient of the identity -/
noncomputable def coef0 (base : Base) (M m : ℝ) : ℝ := match base with | .wilson => M | .maxTwist => m

/-- coefficient of `i gamma5` -/
noncomputable def coef5 (base : Base) (t M m : ℝ) : ℝ := match base with | .wilson => t * m | .maxTwist => -M * t

theorem coef_sq (base : Base) (t M m : ℝ) (ht : t * t = 1) : coef0 base M m ^ 2 + coef5 base t M m ^ 2 = M ^ 2 + m ^ 2 := by
  cases base <;> simp only [coef0, coef5]
  · linear_combination m ^ 2 * ht
  · linear_combination M ^ 2 * ht

theorem quarkD_real (qu : Quark) (base : Base) (p : Dir → ℝ) (M : ℝ) (hM : M = 1 / (2 * qu.kappa) - 4 + 2 * ∑ mu, Real.sin (p mu / 2) ^ 2) :
    quarkD qu base (fun mu => (p mu : ℂ)) = cl (coef0 base M qu.mass : ℝ) (fun nu => I * (Real.sin (p nu) : ℝ)) (I * (coef5 base (tau3 qu.r) M qu.mass : ℝ)) := by
  rw [quarkD_cl, wm_real, ← hM]
  simp only [Complex.ofReal_sin]
  cases base <;> simp only [coef0, coef5] <;> push_cast <;> rfl

theorem prop_cl (g : Geo) (qu : Quark) (c : Coords) (base : Base) (hz : ¬IsZeroMode qu c) (M den : ℝ)
    (hM : M = 1 / (2 * qu.kappa) - 4 + 2 * ∑ mu, Real.sin (momP g.L qu c mu / 2) ^ 2)
    (hden : den = M ^ 2 + qu.mass ^ 2 + ∑ mu, Real.sin (momP g.L qu c mu) ^ 2) :
    twisted_propagator g qu c base = ((1 / den / g.glbVol : ℝ) : ℂ) •
      cl (coef0 base M qu.mass : ℝ) (-fun nu => I * (Real.sin (momP g.L qu c nu) : ℝ)) (-(I * (coef5 base (tau3 qu.r) M qu.mass : ℝ))) := by
  have hc := component_eq g.L qu c
  have hzf : zm_sub qu c = false := by
    have := mt (zm_iff qu c).1 hz
    simpa using this
  unfold twisted_propagator
  simp only [hzf, Bool.false_eq_true, if_false]
  rw [foldI, sum_idouble, sum_double, hc.2.2, hc.2.1, m0_eq]
  rw [← hM, show (∑ mu, Real.sin (momP g.L qu c mu) ^ 2 + M * M + qu.mass * qu.mass : ℝ) = den from by rw [hden]; ring]
  simp only [hc.1]
  rw [show dense (baseGamma 0) = (1 : M4) from C30_products.1, cl_smul]
  rw [show (putToZero : SpinSpin ℂ) = (0 : M4) from rfl, zero_add]
  unfold cl
  simp only [Pi.smul_apply, Pi.neg_apply, smul_eq_mul]
  generalize (1 / den / (g.glbVol : ℝ)) = q
  congr 1
  · congr 1
    · congr 1
      cases base <;> simp only [coef0] <;> push_cast <;> ring
    · refine Finset.sum_congr rfl fun mu _ => ?_
      push_cast
      congr 1; ring
  · congr 1
    cases base <;> simp only [coef5] <;> push_cast <;> ring

theorem den_eq (base : Base) (t M m den : ℝ) (s : Dir → ℝ) (ht : t * t = 1) (hden : den = M ^ 2 + m ^ 2 + ∑ mu, s mu ^ 2) :
    ((coef0 base M m : ℝ) : ℂ) ^ 2 - ∑ nu, (I * (s nu : ℝ)) ^ 2 - (I * (coef5 base t M m : ℝ)) ^ 2 = (den : ℂ) := by
  have h := coef_sq base t M m ht
  simp only [mul_pow, I_sq]
  rw [← Finset.mul_sum, hden, ← h]
  push_cast
  ring

/-- C54: away from the zero mode and from the poles the propagator is the inverse of the operator, up to the volume -/
theorem C54_propagator (g : Geo) (qu : Quark) (c : Coords) (base : Base) (hz : ¬IsZeroMode qu c)
    (hi : IsUnit (quarkD qu base (fun mu => (lattMom (c mu) (qu.bc mu) (g.L mu) : ℂ)))) :
    quarkD qu base (fun mu => (lattMom (c mu) (qu.bc mu) (g.L mu) : ℂ)) * twisted_propagator g qu c base = (1 / g.glbVol : ℂ) • (1 : M4) ∧
    twisted_propagator g qu c base * quarkD qu base (fun mu => (lattMom (c mu) (qu.bc mu) (g.L mu) : ℂ)) = (1 / g.glbVol : ℂ) • (1 : M4) := by
  obtain ⟨M, hM⟩ : ∃ M : ℝ, M = 1 / (2 * qu.kappa) - 4 + 2 * ∑ mu, Real.sin (momP g.L qu c mu / 2) ^ 2 := ⟨_, rfl⟩
  obtain ⟨den, hden⟩ : ∃ den : ℝ, den = M ^ 2 + qu.mass ^ 2 + ∑ mu, Real.sin (momP g.L qu c mu) ^ 2 := ⟨_, rfl⟩
  have hD : quarkD qu base (fun mu => (lattMom (c mu) (qu.bc mu) (g.L mu) : ℂ)) = _ := quarkD_real qu base (momP g.L qu c) M hM
  have key := den_eq base (tau3 qu.r) M qu.mass den (fun mu => Real.sin (momP g.L qu c mu)) (tau_sq _) hden
  rw [hD] at hi ⊢
  have hne := (cl_isUnit _ _ _).1 hi
  rw [key] at hne
  have hV : ((1 / den / g.glbVol : ℝ) : ℂ) * (den : ℂ) = 1 / (g.glbVol : ℂ) := by
    push_cast
    field_simp
  rw [prop_cl g qu c base hz M den hM hden]
  constructor
  · rw [Matrix.mul_smul, cl_mul, key, smul_smul, hV]
  · rw [Matrix.smul_mul, cl_mul', key, smul_smul, hV]

theorem half_angle (x : ℝ) : 1 - Real.cos x = 2 * Real.sin (x / 2) ^ 2 := by
  have h := one_sub_cos x
  have : ((1 - Real.cos x : ℝ) : ℂ) = ((2 * Real.sin (x / 2) ^ 2 : ℝ) : ℂ) := by push_cast; exact h
  exact_mod_cast this

/-- C54: the operator of a real momentum is singular only if the twisted mass vanishes, all components of the momentum are 0 or pi, and
the Wilson mass vanishes -/
theorem C54_poles (L : Coords) (qu : Quark) (c : Coords) (base : Base) :
    IsUnit (quarkD qu base (fun mu => (lattMom (c mu) (qu.bc mu) (L mu) : ℂ))) ↔
    ¬(qu.mass = 0 ∧ (∀ mu, Real.sin (lattMom (c mu) (qu.bc mu) (L mu)) = 0) ∧
      1 / (2 * qu.kappa) - 4 + ∑ mu, (1 - Real.cos (lattMom (c mu) (qu.bc mu) (L mu))) = 0) := by
  show IsUnit (quarkD qu base (fun mu => (momP L qu c mu : ℂ))) ↔ ¬(qu.mass = 0 ∧ (∀ mu, Real.sin (momP L qu c mu) = 0) ∧
    1 / (2 * qu.kappa) - 4 + ∑ mu, (1 - Real.cos (momP L qu c mu)) = 0)
  simp only [half_angle]
  rw [← Finset.mul_sum]
  generalize momP L qu c = p
  obtain ⟨M, hM⟩ : ∃ M : ℝ, M = 1 / (2 * qu.kappa) - 4 + 2 * ∑ mu, Real.sin (p mu / 2) ^ 2 := ⟨_, rfl⟩
  rw [← hM, quarkD_real qu base p M hM, cl_isUnit, den_eq base (tau3 qu.r) M qu.mass _ (fun mu => Real.sin (p mu)) (tau_sq _) rfl, Complex.ofReal_ne_zero, not_iff_not]
  have h1 : 0 ≤ ∑ nu, Real.sin (p nu) ^ 2 := Finset.sum_nonneg fun _ _ => sq_nonneg _
  constructor
  · intro h
    have hm : qu.mass ^ 2 = 0 := by nlinarith [sq_nonneg M, sq_nonneg qu.mass]
    have hM2 : M ^ 2 = 0 := by nlinarith [sq_nonneg M, sq_nonneg qu.mass]
    have hs : ∑ nu, Real.sin (p nu) ^ 2 = 0 := by rw [hm, hM2] at h; simpa using h
    refine ⟨pow_eq_zero_iff (two_ne_zero) |>.1 hm, fun mu => ?_, pow_eq_zero_iff (two_ne_zero) |>.1 hM2⟩
    have := (Finset.sum_eq_zero_iff_of_nonneg fun nu _ => sq_nonneg (Real.sin (p nu))).1 hs mu (Finset.mem_univ _)
    exact pow_eq_zero_iff (two_ne_zero) |>.1 this
  · rintro ⟨h1, h2, h3⟩
    rw [h1, h3]
    simp [h2]

/-- C54: for the zero mode the propagator is the number asked by the user -/
theorem C54_zero_mode (g : Geo) (qu : Quark) (c : Coords) (base : Base) (hz : IsZeroMode qu c) :
    twisted_propagator g qu c base = (qu.zmp : ℂ) • (1 : M4) := by
  have h := (zm_iff qu c).2 hz
  unfold twisted_propagator
  simp only [h, if_true]
  have e : ∀ ig : Fin 4, (baseGamma 0).pos ig = ig ∧ (baseGamma 0).entr ig = 1 := by
    rw [show baseGamma 0 = toC (table 0) from baseGamma_lift 0]
    intro ig
    fin_cases ig <;> simp [toC, table, initDirac, GaussianInt.toComplex, Complex.ext_iff]
  simp only [fun ig => (e ig).1, fun ig => (e ig).2]
  ext i j
  fin_cases i <;> fin_cases j <;> simp [setEl, putToZero] <;> rfl

end Nissa.Free
