import Verif.Color.PropsHeatBath
import Mathlib.Analysis.SpecialFunctions.Integrals.Basic
import Mathlib.MeasureTheory.Integral.IntervalIntegral.Periodic
import Mathlib.Analysis.Calculus.ParametricIntervalIntegral
import Mathlib.Topology.ContinuousMap.Weierstrass

/-! # C84: law of the direction of the heat bath -/

set_option linter.all false

namespace Nissa.Su3f
open intervalIntegral

/-! ### integrals of the powers -/

theorem int_zz (j p : ℕ) : (2 * (p:ℝ) + 1) * ∫ z in (-1:ℝ)..1, (1 - z ^ 2) ^ (j + 1) * z ^ (2 * p) =
    2 * ((j:ℝ) + 1) * ∫ z in (-1:ℝ)..1, (1 - z ^ 2) ^ j * z ^ (2 * (p + 1)) := by
  have hd : ∀ z : ℝ, HasDerivAt (fun z : ℝ => z ^ (2 * p + 1) * (1 - z ^ 2) ^ (j + 1))
      ((2 * p + 1) * ((1 - z ^ 2) ^ (j + 1) * z ^ (2 * p)) - 2 * (j + 1) * ((1 - z ^ 2) ^ j * z ^ (2 * (p + 1)))) z := by
    intro z
    have h1 := hasDerivAt_pow (2 * p + 1) z
    have h2 := (((hasDerivAt_pow 2 z).const_sub 1)).fun_pow (j + 1)
    refine (h1.mul h2).congr_deriv ?_
    simp only [Nat.add_sub_cancel]
    push_cast
    simp only [pow_succ, pow_mul]
    simp only [Pi.pow_apply, pow_zero, one_mul, pow_one]
    ring
  have h := integral_eq_sub_of_hasDerivAt (a := -1) (b := 1) (fun z _ => hd z) (by apply Continuous.intervalIntegrable; fun_prop)
  rw [integral_sub (by apply Continuous.intervalIntegrable; fun_prop) (by apply Continuous.intervalIntegrable; fun_prop),
    integral_const_mul, integral_const_mul] at h
  have e : (1:ℝ) ^ (2 * p + 1) * (1 - 1 ^ 2) ^ (j + 1) - (-1) ^ (2 * p + 1) * (1 - (-1) ^ 2) ^ (j + 1) = 0 := by
    norm_num
  rw [e] at h
  linarith

theorem int_z_odd (j p : ℕ) : ∫ z in (-1:ℝ)..1, (1 - z ^ 2) ^ j * z ^ (2 * p + 1) = 0 := by
  have h := integral_comp_neg (a := -1) (b := 1) (fun z : ℝ => (1 - z ^ 2) ^ j * z ^ (2 * p + 1))
  simp only [neg_neg] at h
  have e : ∀ x : ℝ, (1 - (-x) ^ 2) ^ j * (-x) ^ (2 * p + 1) = -((1 - x ^ 2) ^ j * x ^ (2 * p + 1)) := by
    intro x
    rw [Odd.neg_pow ⟨p, rfl⟩, neg_sq]; ring
  simp only [e, integral_neg] at h
  linarith

theorem int_cos_succ (j : ℕ) : ((j:ℝ) + 2) * ∫ t in (0:ℝ)..(2 * Real.pi), Real.cos t ^ (j + 2) = ((j:ℝ) + 1) * ∫ t in (0:ℝ)..(2 * Real.pi), Real.cos t ^ j := by
  have h := integral_cos_pow (a := 0) (b := 2 * Real.pi) (n := j)
  rw [h]
  have : (j:ℝ) + 2 ≠ 0 := by positivity
  simp only [Real.sin_two_pi, Real.sin_zero, mul_zero, sub_self, zero_div, zero_add]
  field_simp

theorem int_cos_odd (j : ℕ) : ∫ t in (0:ℝ)..(2 * Real.pi), Real.cos t ^ (2 * j + 1) = 0 := by
  induction j with
  | zero => simp
  | succ j ih =>
    have h := int_cos_succ (2 * j + 1)
    rw [ih, mul_zero] at h
    have : ((2 * j + 1 : ℕ) : ℝ) + 2 ≠ 0 := by positivity
    exact (mul_eq_zero.1 h).resolve_left this

theorem coeff_eq (m i : ℕ) (hi : i ≤ m) :
    ((2 * m).choose (2 * i) : ℝ) * (∫ z in (-1:ℝ)..1, (1 - z ^ 2) ^ i * z ^ (2 * (m - i))) * (∫ t in (0:ℝ)..(2 * Real.pi), Real.cos t ^ (2 * i)) =
      (m.choose i : ℝ) * (4 * Real.pi / (2 * m + 1)) := by
  induction i with
  | zero =>
    simp only [mul_zero, Nat.choose_zero_right, Nat.cast_one, one_mul, pow_zero, Nat.sub_zero, integral_pow, integral_const, smul_eq_mul, mul_one, sub_zero]
    have : (2 * (m:ℝ) + 1) ≠ 0 := by positivity
    rw [Odd.neg_one_pow ⟨m, rfl⟩]
    push_cast
    field_simp
    ring
  | succ i ih =>
    have ih := ih (by omega)
    obtain ⟨q, rfl⟩ : ∃ q, m = i + 1 + q := ⟨m - (i + 1), by omega⟩
    rw [show i + 1 + q - (i + 1) = q by omega]
    rw [show i + 1 + q - i = q + 1 by omega] at ih
    have c1 := Nat.choose_succ_right_eq (2 * (i + 1 + q)) (2 * i)
    have c2 := Nat.choose_succ_right_eq (2 * (i + 1 + q)) (2 * i + 1)
    have c3 := Nat.choose_succ_right_eq (i + 1 + q) i
    rw [show 2 * (i + 1 + q) - 2 * i = 2 * q + 2 by omega] at c1
    rw [show 2 * (i + 1 + q) - (2 * i + 1) = 2 * q + 1 by omega] at c2
    rw [show i + 1 + q - i = q + 1 by omega] at c3
    have hz := int_zz i q
    have hc := int_cos_succ (2 * i)
    rw [show 2 * (i + 1) = 2 * i + 1 + 1 by ring]
    rw [show 2 * i + 2 = 2 * i + 1 + 1 by ring] at hc
    replace c1 := congrArg (Nat.cast (R := ℝ)) c1
    replace c2 := congrArg (Nat.cast (R := ℝ)) c2
    replace c3 := congrArg (Nat.cast (R := ℝ)) c3
    push_cast at c1 c2 c3 hc ih ⊢
    generalize (((2 * (i + 1 + q)).choose (2 * i) : ℕ) : ℝ) = B0 at *
    generalize (((2 * (i + 1 + q)).choose (2 * i + 1) : ℕ) : ℝ) = B1 at *
    generalize (((2 * (i + 1 + q)).choose (2 * i + 1 + 1) : ℕ) : ℝ) = B2 at *
    generalize ((i + 1 + q).choose i : ℝ) = D0 at *
    generalize ((i + 1 + q).choose (i + 1) : ℝ) = D1 at *
    generalize (∫ z in (-1:ℝ)..1, (1 - z ^ 2) ^ i * z ^ (2 * (q + 1))) = I0 at *
    generalize (∫ z in (-1:ℝ)..1, (1 - z ^ 2) ^ (i + 1) * z ^ (2 * q)) = I1 at *
    generalize (∫ t in (0:ℝ)..(2 * Real.pi), Real.cos t ^ (2 * i)) = W0 at *
    generalize (∫ t in (0:ℝ)..(2 * Real.pi), Real.cos t ^ (2 * i + 1 + 1)) = W1 at *
    generalize 4 * Real.pi / (2 * ((i:ℝ) + 1 + q) + 1) = K at *
    have hx : (0:ℝ) ≤ i := Nat.cast_nonneg i
    generalize (i:ℝ) = x at *
    have hq : (0:ℝ) ≤ q := Nat.cast_nonneg q
    generalize (q:ℝ) = y at *
    have e1 : I1 = 2 * (x + 1) * I0 / (2 * y + 1) := by
      rw [eq_div_iff (by positivity)]; linarith
    have e2 : W1 = (2 * x + 1) * W0 / (2 * x + 2) := by
      rw [eq_div_iff (by positivity)]; linarith
    have e3 : B1 = B0 * (2 * y + 2) / (2 * x + 1) := by
      rw [eq_div_iff (by positivity)]; linarith
    have e4 : B2 = B1 * (2 * y + 1) / (2 * x + 2) := by
      rw [eq_div_iff (by positivity)]; linarith
    have e5 : D1 = D0 * (y + 1) / (x + 1) := by
      rw [eq_div_iff (by positivity)]; linarith
    rw [e5, e4, e3, e2, e1]
    have : D0 * (y + 1) / (x + 1) * K = (D0 * K) * ((y + 1) / (x + 1)) := by ring
    rw [this, ← ih]
    field_simp

theorem int_sqrt_pow (i q : ℕ) : ∫ z in (-1:ℝ)..1, Real.sqrt (1 - z ^ 2) ^ (2 * i) * z ^ q = ∫ z in (-1:ℝ)..1, (1 - z ^ 2) ^ i * z ^ q := by
  refine integral_congr fun z hz => ?_
  rw [Set.uIcc_of_le (by norm_num)] at hz
  have : 0 ≤ 1 - z ^ 2 := by nlinarith [hz.1, hz.2]
  simp only [pow_mul, Real.sq_sqrt this]

theorem double_expand (k : ℕ) (a b : ℝ) :
    ∫ z in (-1:ℝ)..1, ∫ t in (0:ℝ)..(2 * Real.pi), (a * (Real.sqrt (1 - z ^ 2) * Real.cos t) + b * z) ^ k =
      ∑ j ∈ Finset.range (k + 1), a ^ j * b ^ (k - j) *
        ((k.choose j : ℝ) * (∫ z in (-1:ℝ)..1, Real.sqrt (1 - z ^ 2) ^ j * z ^ (k - j)) * (∫ t in (0:ℝ)..(2 * Real.pi), Real.cos t ^ j)) := by
  have h1 : ∀ z : ℝ, ∫ t in (0:ℝ)..(2 * Real.pi), (a * (Real.sqrt (1 - z ^ 2) * Real.cos t) + b * z) ^ k =
      ∑ j ∈ Finset.range (k + 1), (a ^ j * b ^ (k - j) * (k.choose j : ℝ) * (∫ t in (0:ℝ)..(2 * Real.pi), Real.cos t ^ j)) *
        (Real.sqrt (1 - z ^ 2) ^ j * z ^ (k - j)) := by
    intro z
    simp only [add_pow]
    rw [integral_finset_sum (fun j _ => by apply Continuous.intervalIntegrable; fun_prop)]
    refine Finset.sum_congr rfl fun j _ => ?_
    have e : ∀ t : ℝ, (a * (Real.sqrt (1 - z ^ 2) * Real.cos t)) ^ j * (b * z) ^ (k - j) * (k.choose j : ℝ) =
        (a ^ j * b ^ (k - j) * (k.choose j : ℝ) * (Real.sqrt (1 - z ^ 2) ^ j * z ^ (k - j))) * Real.cos t ^ j := by
      intro t; simp only [mul_pow]; ring
    simp only [e, integral_const_mul]
    ring
  simp only [h1]
  rw [integral_finset_sum (fun j _ => by apply Continuous.intervalIntegrable; fun_prop)]
  refine Finset.sum_congr rfl fun j _ => ?_
  rw [integral_const_mul]
  ring

theorem sum_even {f : ℕ → ℝ} (h : ∀ i, f (2 * i + 1) = 0) (m : ℕ) : ∑ j ∈ Finset.range (2 * m + 1), f j = ∑ i ∈ Finset.range (m + 1), f (2 * i) := by
  induction m with
  | zero => simp
  | succ m ih =>
    rw [show 2 * (m + 1) + 1 = 2 * m + 1 + 1 + 1 by ring, Finset.sum_range_succ, Finset.sum_range_succ, ih, h, Finset.sum_range_succ _ (m + 1)]
    rw [add_zero, show 2 * m + 1 + 1 = 2 * (m + 1) by ring]

theorem moment_polar_even (m : ℕ) (a b : ℝ) :
    ∫ z in (-1:ℝ)..1, ∫ t in (0:ℝ)..(2 * Real.pi), (a * (Real.sqrt (1 - z ^ 2) * Real.cos t) + b * z) ^ (2 * m) =
      (a ^ 2 + b ^ 2) ^ m * (4 * Real.pi / (2 * m + 1)) := by
  rw [double_expand, sum_even (fun i => by rw [int_cos_odd, mul_zero, mul_zero]), add_pow, Finset.sum_mul]
  refine Finset.sum_congr rfl fun i hi => ?_
  have hi : i ≤ m := by have := Finset.mem_range.1 hi; omega
  rw [int_sqrt_pow, show 2 * m - 2 * i = 2 * (m - i) by omega, coeff_eq m i hi, pow_mul, pow_mul]
  ring

theorem moment_polar_odd (m : ℕ) (a b : ℝ) :
    ∫ z in (-1:ℝ)..1, ∫ t in (0:ℝ)..(2 * Real.pi), (a * (Real.sqrt (1 - z ^ 2) * Real.cos t) + b * z) ^ (2 * m + 1) = 0 := by
  rw [double_expand]
  refine Finset.sum_eq_zero fun j hj => ?_
  have hj := Finset.mem_range.1 hj
  rcases Nat.even_or_odd' j with ⟨i, rfl | rfl⟩
  · rw [int_sqrt_pow, show 2 * m + 1 - 2 * i = 2 * (m - i) + 1 by omega, int_z_odd]; ring
  · rw [int_cos_odd]; ring

theorem moment_polar (k : ℕ) (a b : ℝ) :
    ∫ z in (-1:ℝ)..1, ∫ t in (0:ℝ)..(2 * Real.pi), (a * (Real.sqrt (1 - z ^ 2) * Real.cos t) + b * z) ^ k =
      2 * Real.pi * ∫ t in (-1:ℝ)..1, (Real.sqrt (a ^ 2 + b ^ 2) * t) ^ k := by
  simp only [mul_pow, integral_const_mul, integral_pow]
  rcases Nat.even_or_odd' k with ⟨m, rfl | rfl⟩
  · rw [moment_polar_even, pow_mul, Real.sq_sqrt (by positivity), Odd.neg_one_pow ⟨m, rfl⟩]
    have : (2 * (m:ℝ) + 1) ≠ 0 := by positivity
    push_cast
    field_simp
    ring
  · rw [moment_polar_odd, Even.neg_one_pow ⟨m + 1, by ring⟩]
    simp

/-! ### any direction -/

theorem phase_shift (x y : ℝ) : ∃ d, ∀ t, x * Real.cos t + y * Real.sin t = Real.sqrt (x ^ 2 + y ^ 2) * Real.cos (t - d) := by
  refine ⟨Complex.arg ⟨x, y⟩, fun t => ?_⟩
  have hc := Complex.norm_mul_cos_arg ⟨x, y⟩
  have hs := Complex.norm_mul_sin_arg ⟨x, y⟩
  have hn : ‖(⟨x, y⟩ : ℂ)‖ = Real.sqrt (x ^ 2 + y ^ 2) := by
    rw [Complex.norm_def, Complex.normSq_mk]; congr 1; ring
  rw [hn] at hc hs
  rw [Real.cos_sub]
  simp only at hc hs
  linear_combination (-Real.cos t) * hc + (-Real.sin t) * hs

theorem moment_sphere (k : ℕ) (n1 n2 n3 : ℝ) :
    ∫ z in (-1:ℝ)..1, ∫ t in (0:ℝ)..(2 * Real.pi), (n1 * (Real.sqrt (1 - z ^ 2) * Real.cos t) + n2 * (Real.sqrt (1 - z ^ 2) * Real.sin t) + n3 * z) ^ k =
      2 * Real.pi * ∫ t in (-1:ℝ)..1, (Real.sqrt (n1 ^ 2 + n2 ^ 2 + n3 ^ 2) * t) ^ k := by
  obtain ⟨d, hd⟩ := phase_shift n1 n2
  have h : ∀ z : ℝ, ∫ t in (0:ℝ)..(2 * Real.pi), (n1 * (Real.sqrt (1 - z ^ 2) * Real.cos t) + n2 * (Real.sqrt (1 - z ^ 2) * Real.sin t) + n3 * z) ^ k =
      ∫ t in (0:ℝ)..(2 * Real.pi), (Real.sqrt (n1 ^ 2 + n2 ^ 2) * (Real.sqrt (1 - z ^ 2) * Real.cos t) + n3 * z) ^ k := by
    intro z
    let g : ℝ → ℝ := fun t => (Real.sqrt (n1 ^ 2 + n2 ^ 2) * (Real.sqrt (1 - z ^ 2) * Real.cos t) + n3 * z) ^ k
    have e : ∀ t, (n1 * (Real.sqrt (1 - z ^ 2) * Real.cos t) + n2 * (Real.sqrt (1 - z ^ 2) * Real.sin t) + n3 * z) ^ k = g (t - d) := by
      intro t
      show _ = (_ : ℝ) ^ k
      congr 1
      linear_combination (Real.sqrt (1 - z ^ 2)) * hd t
    simp only [e]
    rw [integral_comp_sub_right g d]
    have hp : Function.Periodic g (2 * Real.pi) := by
      intro t
      simp only [g, Real.cos_add_two_pi]
    have := hp.intervalIntegral_add_eq (0 - d) 0
    rw [zero_add, show 0 - d + 2 * Real.pi = 2 * Real.pi - d by ring] at this
    exact this
  simp only [h]
  rw [moment_polar, Real.sq_sqrt (by positivity)]

/-! ### from the powers to any continuous function -/

theorem weierstrass_law (s : ℝ → ℝ → ℝ) (hs : Continuous (Function.uncurry s)) (c : ℝ) (hc : 0 ≤ c)
    (hb : ∀ u ∈ Set.Icc (0:ℝ) 1, ∀ v ∈ Set.Icc (0:ℝ) 1, |s u v| ≤ c)
    (hm : ∀ k : ℕ, ∫ u in (0:ℝ)..1, ∫ v in (0:ℝ)..1, s u v ^ k = 1 / 2 * ∫ t in (-1:ℝ)..1, (c * t) ^ k) (f : ℝ → ℝ) (hf : Continuous f) :
    ∫ u in (0:ℝ)..1, ∫ v in (0:ℝ)..1, f (s u v) = 1 / 2 * ∫ t in (-1:ℝ)..1, f (c * t) := by
  have hsu : ∀ u, Continuous (s u) := fun u => hs.comp (by fun_prop : Continuous fun v => (u, v))
  have hin : ∀ g : ℝ → ℝ, Continuous g → Continuous fun u => ∫ v in (0:ℝ)..1, g (s u v) := fun g hg =>
    continuous_parametric_intervalIntegral_of_continuous' (f := fun u v => g (s u v)) (hg.comp hs) 0 1
  have hpol : ∀ p : Polynomial ℝ, ∫ u in (0:ℝ)..1, ∫ v in (0:ℝ)..1, p.eval (s u v) = 1 / 2 * ∫ t in (-1:ℝ)..1, p.eval (c * t) := by
    intro p
    simp only [Polynomial.eval_eq_sum_range]
    have h1 : ∀ u, ∫ v in (0:ℝ)..1, ∑ i ∈ Finset.range (p.natDegree + 1), p.coeff i * s u v ^ i =
        ∑ i ∈ Finset.range (p.natDegree + 1), p.coeff i * ∫ v in (0:ℝ)..1, s u v ^ i := by
      intro u
      rw [integral_finset_sum (fun i _ => by
        apply Continuous.intervalIntegrable
        exact continuous_const.mul ((hsu u).pow i))]
      simp only [integral_const_mul]
    simp only [h1]
    rw [integral_finset_sum (fun i _ => by
      apply Continuous.intervalIntegrable
      exact continuous_const.mul (hin (fun x => x ^ i) (by fun_prop)))]
    rw [integral_finset_sum (fun i _ => by apply Continuous.intervalIntegrable; fun_prop)]
    simp only [integral_const_mul, hm]
    rw [Finset.mul_sum]
    exact Finset.sum_congr rfl fun i _ => by ring
  have hmain : ∀ e : ℝ, 0 < e → |(∫ u in (0:ℝ)..1, ∫ v in (0:ℝ)..1, f (s u v)) - 1 / 2 * ∫ t in (-1:ℝ)..1, f (c * t)| ≤ 2 * e := by
    intro e he
    obtain ⟨p, hp⟩ := exists_polynomial_near_of_continuousOn (-c) c f hf.continuousOn e he
    have hp' : ∀ x, |x| ≤ c → |f x - p.eval x| ≤ e := fun x hx => by
      rw [abs_sub_comm]; exact (hp x (abs_le.1 hx)).le
    have hpc : Continuous fun x => p.eval x := p.continuous
    have dL : (∫ u in (0:ℝ)..1, ∫ v in (0:ℝ)..1, f (s u v)) - ∫ u in (0:ℝ)..1, ∫ v in (0:ℝ)..1, p.eval (s u v) =
        ∫ u in (0:ℝ)..1, ∫ v in (0:ℝ)..1, (f (s u v) - p.eval (s u v)) := by
      rw [← integral_sub ((hin f hf).intervalIntegrable _ _) ((hin _ hpc).intervalIntegrable _ _)]
      refine integral_congr fun u _ => ?_
      exact (integral_sub ((hf.comp (hsu u)).intervalIntegrable _ _) ((hpc.comp (hsu u)).intervalIntegrable _ _)).symm
    have bL : |∫ u in (0:ℝ)..1, ∫ v in (0:ℝ)..1, (f (s u v) - p.eval (s u v))| ≤ e := by
      have := norm_integral_le_of_norm_le_const (a := 0) (b := 1) (C := e) (f := fun u => ∫ v in (0:ℝ)..1, (f (s u v) - p.eval (s u v))) (by
        intro u hu
        rw [Set.uIoc_of_le (by norm_num)] at hu
        have := norm_integral_le_of_norm_le_const (a := 0) (b := 1) (C := e) (f := fun v => (f (s u v) - p.eval (s u v))) (by
          intro v hv
          rw [Set.uIoc_of_le (by norm_num)] at hv
          exact hp' _ (hb u ⟨hu.1.le, hu.2⟩ v ⟨hv.1.le, hv.2⟩))
        simpa using this)
      simpa using this
    have dR : (∫ t in (-1:ℝ)..1, f (c * t)) - ∫ t in (-1:ℝ)..1, p.eval (c * t) = ∫ t in (-1:ℝ)..1, (f (c * t) - p.eval (c * t)) := by
      rw [integral_sub]
      · exact (hf.comp (by fun_prop)).intervalIntegrable _ _
      · exact (hpc.comp (by fun_prop)).intervalIntegrable _ _
    have bR : |∫ t in (-1:ℝ)..1, (f (c * t) - p.eval (c * t))| ≤ e * 2 := by
      have := norm_integral_le_of_norm_le_const (a := -1) (b := 1) (C := e) (f := fun t => (f (c * t) - p.eval (c * t))) (by
        intro t ht
        rw [Set.uIoc_of_le (by norm_num)] at ht
        refine hp' _ ?_
        rw [abs_mul, abs_of_nonneg hc]
        exact mul_le_of_le_one_right hc (abs_le.2 ⟨ht.1.le, ht.2⟩))
      rw [show |(1:ℝ) - -1| = 2 by norm_num] at this
      exact this
    have hh := hpol p
    have : (∫ u in (0:ℝ)..1, ∫ v in (0:ℝ)..1, f (s u v)) - 1 / 2 * ∫ t in (-1:ℝ)..1, f (c * t) =
        (∫ u in (0:ℝ)..1, ∫ v in (0:ℝ)..1, (f (s u v) - p.eval (s u v))) - 1 / 2 * ∫ t in (-1:ℝ)..1, (f (c * t) - p.eval (c * t)) := by
      rw [← dL, ← dR, hh]; ring
    rw [this]
    have b1 := abs_le.1 bL
    have b2 := abs_le.1 bR
    exact abs_le.2 ⟨by linarith [b1.1, b2.2], by linarith [b1.2, b2.1]⟩
  by_contra hne
  have hpos : 0 < |(∫ u in (0:ℝ)..1, ∫ v in (0:ℝ)..1, f (s u v)) - 1 / 2 * ∫ t in (-1:ℝ)..1, f (c * t)| := abs_pos.2 (sub_ne_zero.2 hne)
  have := hmain _ (show 0 < |(∫ u in (0:ℝ)..1, ∫ v in (0:ℝ)..1, f (s u v)) - 1 / 2 * ∫ t in (-1:ℝ)..1, f (c * t)| / 4 by positivity)
  linarith

theorem unif_double (G : ℝ → ℝ → ℝ) : ∫ u4 in (0:ℝ)..1, ∫ u3 in (0:ℝ)..1, G (unif u4 (-1) 1) (unif u3 0 (2 * Real.pi)) =
    1 / (4 * Real.pi) * ∫ z in (-1:ℝ)..1, ∫ t in (0:ℝ)..(2 * Real.pi), G z t := by
  have hpi := Real.pi_ne_zero
  have e3 : ∀ z, ∫ u3 in (0:ℝ)..1, G z (unif u3 0 (2 * Real.pi)) = (2 * Real.pi)⁻¹ * ∫ t in (0:ℝ)..(2 * Real.pi), G z t := by
    intro z
    have := integral_comp_mul_right (a := 0) (b := 1) (fun t => G z t) (c := 2 * Real.pi) (by positivity)
    simpa [unif] using this
  simp only [e3, integral_const_mul]
  have := integral_comp_mul_add (a := 0) (b := 1) (fun z => ∫ t in (0:ℝ)..(2 * Real.pi), G z t) (c := 2) (by norm_num) (-1)
  have e4 : ∀ u : ℝ, unif u (-1) 1 = 2 * u + -1 := fun u => by unfold unif; ring
  simp only [e4, this, smul_eq_mul]
  norm_num
  ring

/-- C84: the direction of the SU(2) matrix of the step is uniform on the sphere of radius `sqrt(1-a0^2)`: the component along any direction `n` has, for uniform
random numbers, the law of `sqrt(1-a0^2)*|n|*t` with `t` uniform in [-1,1], for any continuous test function -/
theorem C84_direction (a0 : ℝ) (ha : |a0| ≤ 1) (n1 n2 n3 : ℝ) (f : ℝ → ℝ) (hf : Continuous f) :
    ∫ u4 in (0:ℝ)..1, ∫ u3 in (0:ℝ)..1, f (n1 * (hbA a0 u3 u4).B + n2 * (hbA a0 u3 u4).C + n3 * (hbA a0 u3 u4).D) =
      1 / 2 * ∫ t in (-1:ℝ)..1, f (Real.sqrt (1 - a0 ^ 2) * Real.sqrt (n1 ^ 2 + n2 ^ 2 + n3 ^ 2) * t) := by
  have hz : 0 ≤ hbZ a0 := by
    unfold hbZ
    have := sq_abs a0
    nlinarith [abs_nonneg a0]
  have hz' : hbZ a0 = 1 - a0 ^ 2 := by unfold hbZ; ring
  refine weierstrass_law (fun u4 u3 => n1 * (hbA a0 u3 u4).B + n2 * (hbA a0 u3 u4).C + n3 * (hbA a0 u3 u4).D) ?_ _ (by positivity) ?_ ?_ f hf
  · unfold hbA unif Function.uncurry
    dsimp only
    fun_prop
  · intro u4 h4 u3 h3
    rw [← Real.sqrt_mul (by rw [← hz']; exact hz)]
    refine Real.abs_le_sqrt ?_
    have h := hbA_n2 a0 u3 u4 hz h4.1 h4.2
    have hA : (hbA a0 u3 u4).A = a0 := rfl
    unfold Su2.n2 at h
    rw [hA] at h
    generalize (hbA a0 u3 u4).B = B at *
    generalize (hbA a0 u3 u4).C = C at *
    generalize (hbA a0 u3 u4).D = D at *
    have e : 1 - a0 ^ 2 = B ^ 2 + C ^ 2 + D ^ 2 := by linarith
    rw [e]
    nlinarith [sq_nonneg (n1 * C - n2 * B), sq_nonneg (n1 * D - n3 * B), sq_nonneg (n2 * D - n3 * C)]
  · intro k
    have e : ∀ u4 u3, (n1 * (hbA a0 u3 u4).B + n2 * (hbA a0 u3 u4).C + n3 * (hbA a0 u3 u4).D) ^ k =
        (fun z t => Real.sqrt (1 - a0 ^ 2) ^ k * (n1 * (Real.sqrt (1 - z ^ 2) * Real.cos t) + n2 * (Real.sqrt (1 - z ^ 2) * Real.sin t) + n3 * z) ^ k)
          (unif u4 (-1) 1) (unif u3 0 (2 * Real.pi)) := by
      intro u4 u3
      unfold hbA
      dsimp only
      rw [hz', ← mul_pow, ← pow_two]
      congr 1
      ring
    simp only [e]
    rw [unif_double (fun z t => Real.sqrt (1 - a0 ^ 2) ^ k * (n1 * (Real.sqrt (1 - z ^ 2) * Real.cos t) + n2 * (Real.sqrt (1 - z ^ 2) * Real.sin t) + n3 * z) ^ k)]
    simp only [integral_const_mul, moment_sphere]
    have e2 : ∀ t : ℝ, (Real.sqrt (1 - a0 ^ 2) * Real.sqrt (n1 ^ 2 + n2 ^ 2 + n3 ^ 2) * t) ^ k =
        Real.sqrt (1 - a0 ^ 2) ^ k * (Real.sqrt (n1 ^ 2 + n2 ^ 2 + n3 ^ 2) * t) ^ k := fun t => by rw [mul_assoc, mul_pow]
    simp only [e2, integral_const_mul]
    have hpi := Real.pi_ne_zero
    field_simp
    ring

/-- non vacuity: the component along the direction (1,2,2), of module 3, has mean square `(1-a0^2)*9/3` -/
example (a0 : ℝ) (ha : |a0| ≤ 1) : ∫ u4 in (0:ℝ)..1, ∫ u3 in (0:ℝ)..1, (1 * (hbA a0 u3 u4).B + 2 * (hbA a0 u3 u4).C + 2 * (hbA a0 u3 u4).D) ^ 2 = (1 - a0 ^ 2) * 3 := by
  rw [C84_direction a0 ha 1 2 2 (fun x => x ^ 2) (by fun_prop)]
  have hz : 0 ≤ 1 - a0 ^ 2 := by
    have := sq_abs a0
    nlinarith [abs_nonneg a0]
  simp only [mul_pow, Real.sq_sqrt hz, integral_const_mul, integral_pow]
  rw [Real.sq_sqrt (by norm_num)]
  norm_num
  ring

/-- C84: joint law of a proposal weighted with its probability of acceptance `sqrt(1-a0^2)`: `a0` has the density `exp(w*a0)*sqrt(1-a0^2)`, and for each `a0` the other
components are uniform on the sphere of radius `sqrt(1-a0^2)`: the Haar measure of SU(2) times the weight, for any continuous function of `a0` and of one component -/
theorem C84_law (w : ℝ) (hw : w ≠ 0) : ∃ c : ℝ, 0 < c ∧ ∀ (n1 n2 n3 : ℝ) (f : ℝ → ℝ → ℝ), Continuous (Function.uncurry f) →
    ∫ u1 in (0:ℝ)..1, (∫ u4 in (0:ℝ)..1, ∫ u3 in (0:ℝ)..1, f (hbA0 w u1)
        (n1 * (hbA (hbA0 w u1) u3 u4).B + n2 * (hbA (hbA0 w u1) u3 u4).C + n3 * (hbA (hbA0 w u1) u3 u4).D)) * Real.sqrt (1 - (hbA0 w u1) ^ 2) =
      c * ∫ a in (-1:ℝ)..1, (1 / 2 * ∫ t in (-1:ℝ)..1, f a (Real.sqrt (1 - a ^ 2) * Real.sqrt (n1 ^ 2 + n2 ^ 2 + n3 ^ 2) * t)) *
        (Real.exp (w * a) * Real.sqrt (1 - a ^ 2)) := by
  obtain ⟨c, hc, h⟩ := C84_density w hw
  refine ⟨c, hc, fun n1 n2 n3 f hf => ?_⟩
  rw [← h (fun a => 1 / 2 * ∫ t in (-1:ℝ)..1, f a (Real.sqrt (1 - a ^ 2) * Real.sqrt (n1 ^ 2 + n2 ^ 2 + n3 ^ 2) * t)) ?_]
  · refine integral_congr fun u _ => ?_
    by_cases ha : |hbA0 w u| ≤ 1
    · rw [C84_direction (hbA0 w u) ha n1 n2 n3 (fun x => f (hbA0 w u) x) (hf.comp (by fun_prop : Continuous fun x => (hbA0 w u, x)))]
    · have : 1 - (hbA0 w u) ^ 2 ≤ 0 := by
        have := sq_abs (hbA0 w u)
        nlinarith [not_le.1 ha]
      rw [Real.sqrt_eq_zero_of_nonpos this, mul_zero, mul_zero]
  · refine continuous_const.mul ?_
    exact continuous_parametric_intervalIntegral_of_continuous'
      (f := fun a t => f a (Real.sqrt (1 - a ^ 2) * Real.sqrt (n1 ^ 2 + n2 ^ 2 + n3 ^ 2) * t))
      (hf.comp (by fun_prop : Continuous fun q : ℝ × ℝ => (q.1, Real.sqrt (1 - q.1 ^ 2) * Real.sqrt (n1 ^ 2 + n2 ^ 2 + n3 ^ 2) * q.2))) (-1) 1

/-! ### end of the loop of acceptance -/

/-- C84: the loop of acceptance ends exactly if one of the pairs of random numbers is accepted -/
theorem C84_loop_ends_iff (w : ℝ) (d : List ℝ) : (hbLoop w d).isSome ↔
    ∃ k u1 u2, d[2 * k]? = some u1 ∧ d[2 * k + 1]? = some u2 ∧ u2 ^ 2 ≤ 1 - (hbA0 w u1) ^ 2 := by
  suffices h : ∀ (n : ℕ) (d : List ℝ), d.length ≤ n → ((hbLoop w d).isSome ↔
      ∃ k u1 u2, d[2 * k]? = some u1 ∧ d[2 * k + 1]? = some u2 ∧ u2 ^ 2 ≤ 1 - (hbA0 w u1) ^ 2) from h d.length d le_rfl
  intro n
  induction n with
  | zero =>
    intro d hd
    have : d = [] := List.length_eq_zero_iff.1 (Nat.le_zero.1 hd)
    subst this
    simp [hbLoop]
  | succ n ih =>
    intro d hd
    match d, hd with
    | [], _ => simp [hbLoop]
    | [u], _ => simp [hbLoop]
    | u1 :: u2 :: rest, hd =>
      have hr : hbRetry (hbZ (hbA0 w u1)) u2 ↔ ¬ u2 ^ 2 ≤ 1 - (hbA0 w u1) ^ 2 := by
        unfold hbRetry hbZ unif
        rw [not_le]
        constructor <;> intro h <;> nlinarith
      rw [hbLoop]
      by_cases h : hbRetry (hbZ (hbA0 w u1)) u2
      · rw [if_pos h, ih rest (by simp at hd; omega)]
        constructor
        · rintro ⟨k, v1, v2, e1, e2, e⟩
          refine ⟨k + 1, v1, v2, ?_, ?_, e⟩
          · rw [show 2 * (k + 1) = 2 * k + 1 + 1 by ring]; simpa using e1
          · rw [show 2 * (k + 1) + 1 = 2 * k + 1 + 1 + 1 by ring]; simpa using e2
        · rintro ⟨k, v1, v2, e1, e2, e⟩
          cases k with
          | zero =>
            have a1 : u1 = v1 := by simpa using e1
            have a2 : u2 = v2 := by simpa using e2
            subst a1; subst a2
            exact absurd e (hr.1 h)
          | succ k =>
            rw [show 2 * (k + 1) = 2 * k + 1 + 1 by ring] at e1
            rw [show 2 * (k + 1) + 1 = 2 * k + 1 + 1 + 1 by ring] at e2
            exact ⟨k, v1, v2, by simpa using e1, by simpa using e2, e⟩
      · rw [if_neg h]
        refine ⟨fun _ => ⟨0, u1, u2, by simp, by simp, ?_⟩, fun _ => rfl⟩
        by_contra hc
        exact h (hr.2 hc)

/-- C84: the probability that a pair of uniform random numbers is accepted is not null -/
theorem C84_acceptance_positive (w : ℝ) (hw : w ≠ 0) : 0 < ∫ u in (0:ℝ)..1, Real.sqrt (1 - (hbA0 w u) ^ 2) := by
  obtain ⟨c, hc, h⟩ := C84_density w hw
  have h1 := h (fun _ => 1) continuous_const
  simp only [one_mul] at h1
  rw [h1]
  refine mul_pos hc (intervalIntegral_pos_of_pos_on ?_ ?_ (by norm_num))
  · apply Continuous.intervalIntegrable; fun_prop
  · intro x hx
    exact mul_pos (Real.exp_pos _) (Real.sqrt_pos.2 (by nlinarith [hx.1, hx.2]))

end Nissa.Su3f
