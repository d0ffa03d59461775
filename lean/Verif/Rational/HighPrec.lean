import Verif.Rational.PropsFractions
import Mathlib.Analysis.SpecialFunctions.Pow.Real
import Mathlib.Analysis.SpecialFunctions.Trigonometric.Basic
import Mathlib.Analysis.SpecialFunctions.Exponential
import Mathlib.Analysis.Complex.Exponential
import Mathlib.Analysis.SpecificLimits.Basic

/-!
# Powers in high precision, and the starting points of the finder

Model of `src/new_types/high_prec.cpp` and of `find_cheb` (remez_algorithm.cpp), and C56 for them.
-/

set_option linter.all false

namespace Nissa.Remez

/-- `float_high_prec_t_pow_int`: high_prec.cpp:42-66. -/
noncomputable def pow_int (x : ℝ) (d : Int) : ℝ :=
  if d = 0 then 1
  else if d < 0 then
    up ((-d).toNat - 1) (fun _ out => out * (1 / x)) (1 / x)
  else up (d.toNat - 1) (fun _ out => out * x) x

/-- The loop of `float_high_prec_t_pow_int_frac`, at most `fuel` passes: high_prec.cpp:80-101.
`ref` is `in^n`. -/
noncomputable def powFracLoop (ref : ℝ) (d : Int) (tol : ℝ) : Nat → ℝ → Option ℝ
  | 0, _ => none
  | fuel + 1, out =>
    if tol < |ref / pow_int out d - 1| then
      powFracLoop ref d tol fuel (out + (ref / pow_int out d - 1) * out / d)
    else some (out + (ref / pow_int out d - 1) * out / d)

/-- `float_high_prec_t_pow_int_frac`: high_prec.cpp:69-104.  `guess` is the value in double precision
the loop starts from, `tol` is `32·2^-bits`. -/
noncomputable def pow_int_frac (x : ℝ) (n d : Int) (guess tol : ℝ) (fuel : Nat) : Option ℝ :=
  powFracLoop (pow_int x n) d tol fuel guess

theorem pow_int_eq (x : ℝ) (d : Int) : pow_int x d = x ^ d := by
  have hup : ∀ (y : ℝ) (m : Nat), up m (fun _ out => out * y) y = y ^ (m + 1) := by
    intro y m
    induction m with
    | zero => simp [up]
    | succ m ih => rw [up, ih]; ring
  unfold pow_int
  by_cases h0 : d = 0
  · rw [if_pos h0, h0, zpow_zero]
  · rw [if_neg h0]
    by_cases hn : d < 0
    · rw [if_pos hn, hup]
      obtain ⟨m, hm⟩ : ∃ m : Nat, d = -((m + 1 : Nat) : Int) := ⟨(-d).toNat - 1, by omega⟩
      rw [hm, show (-(-((m + 1 : Nat) : Int))).toNat - 1 = m by omega, zpow_neg, zpow_natCast, one_div,
        inv_pow]
    · rw [if_neg hn, hup]
      obtain ⟨m, hm⟩ : ∃ m : Nat, d = ((m + 1 : Nat) : Int) := ⟨d.toNat - 1, by omega⟩
      rw [hm, show (((m + 1 : Nat) : Int)).toNat - 1 = m by omega, zpow_natCast]

/-- The heart of the convergence: `(1+ρ/d)^d` against `1+ρ`. -/
theorem newton_gain (d : Int) (hd : d ≠ 0) (ρ : ℝ) (h : |ρ| ≤ 1 / 2) :
    0 < 1 + ρ / d ∧ 1 ≤ (1 + ρ / d) ^ d / (1 + ρ) ∧ (1 + ρ / d) ^ d / (1 + ρ) ≤ 1 + 2 * ρ ^ 2 := by
  obtain ⟨h1, h2⟩ := abs_le.1 h
  have hp : 0 < 1 + ρ := by linarith
  have hexp : Real.exp ρ ≤ 1 + ρ + ρ ^ 2 := by
    have := Real.abs_exp_sub_one_sub_id_le (x := ρ) (by linarith)
    have := (abs_le.1 this).2
    linarith
  have up1 : (1 + ρ + ρ ^ 2) / (1 + ρ) ≤ 1 + 2 * ρ ^ 2 := by
    rw [div_le_iff₀ hp]
    nlinarith [sq_nonneg ρ]
  rcases lt_or_gt_of_ne hd with hneg | hpos
  · -- negative exponent
    obtain ⟨m, hm⟩ : ∃ m : Nat, d = -((m + 1 : Nat) : Int) := ⟨(-d).toNat - 1, by omega⟩
    have hM : (1 : ℝ) ≤ ((m + 1 : Nat) : ℝ) := by exact_mod_cast Nat.succ_le_succ (Nat.zero_le m)
    have hMp : (0 : ℝ) < ((m + 1 : Nat) : ℝ) := by linarith
    have hcast : (d : ℝ) = -((m + 1 : Nat) : ℝ) := by rw [hm]; push_cast; ring
    rw [hcast, div_neg, ← sub_eq_add_neg]
    set t := ρ / ((m + 1 : Nat) : ℝ) with ht
    have ht2 : t ≤ 1 / 2 := by
      rw [ht, div_le_iff₀ hMp]
      nlinarith
    have hpos' : 0 < 1 - t := by linarith
    refine ⟨hpos', ?_⟩
    have hz : (1 - t) ^ d = ((1 - t) ^ (m + 1))⁻¹ := by rw [hm, zpow_neg, zpow_natCast]
    rw [hz]
    have hq : 0 < (1 - t) ^ (m + 1) := pow_pos hpos' _
    have hle : (1 - t) ^ (m + 1) ≤ Real.exp (-ρ) := by
      have := Real.one_sub_le_exp_neg t
      have h3 := pow_le_pow_left₀ hpos'.le this (m + 1)
      rw [← Real.exp_nat_mul] at h3
      rwa [show ((m + 1 : Nat) : ℝ) * -t = -ρ by rw [ht]; field_simp] at h3
    have hge : 1 - ρ ≤ (1 - t) ^ (m + 1) := by
      have := one_add_mul_le_pow (a := -t) (by linarith) (m + 1)
      rw [show (1 : ℝ) + ((m + 1 : Nat) : ℝ) * -t = 1 - ρ by rw [ht]; field_simp; ring] at this
      rwa [← sub_eq_add_neg] at this
    constructor
    · rw [le_div_iff₀ hp, one_mul]
      have h4 : Real.exp ρ ≤ ((1 - t) ^ (m + 1))⁻¹ := by
        rw [← neg_neg ρ, Real.exp_neg]
        exact inv_anti₀ hq hle
      exact (by linarith [Real.add_one_le_exp ρ] : 1 + ρ ≤ Real.exp ρ).trans h4
    · have hp2 : 0 < 1 - ρ := by linarith
      have h4 : ((1 - t) ^ (m + 1))⁻¹ ≤ (1 - ρ)⁻¹ := inv_anti₀ hp2 hge
      rw [div_le_iff₀ hp]
      refine h4.trans ?_
      rw [inv_le_iff_one_le_mul₀ hp2]
      have h5 : ρ ^ 2 ≤ 1 / 4 := by nlinarith
      nlinarith [sq_nonneg ρ, mul_nonneg (sq_nonneg ρ) (by linarith : (0 : ℝ) ≤ 1 - 2 * ρ ^ 2)]
  · -- positive exponent
    obtain ⟨m, hm⟩ : ∃ m : Nat, d = ((m + 1 : Nat) : Int) := ⟨d.toNat - 1, by omega⟩
    have hM : (1 : ℝ) ≤ ((m + 1 : Nat) : ℝ) := by exact_mod_cast Nat.succ_le_succ (Nat.zero_le m)
    have hMp : (0 : ℝ) < ((m + 1 : Nat) : ℝ) := by linarith
    have hcast : (d : ℝ) = ((m + 1 : Nat) : ℝ) := by rw [hm]; push_cast; ring
    rw [hcast]
    set t := ρ / ((m + 1 : Nat) : ℝ) with ht
    have ht2 : -(1 / 2) ≤ t := by
      rw [ht, le_div_iff₀ hMp]
      nlinarith
    have hpos' : 0 < 1 + t := by linarith
    refine ⟨hpos', ?_⟩
    have hz : (1 + t) ^ d = (1 + t) ^ (m + 1) := by rw [hm, zpow_natCast]
    rw [hz]
    constructor
    · rw [le_div_iff₀ hp, one_mul]
      have := one_add_mul_le_pow (a := t) (by linarith) (m + 1)
      rwa [show (1 : ℝ) + ((m + 1 : Nat) : ℝ) * t = 1 + ρ by rw [ht]; field_simp] at this
    · refine (div_le_div_of_nonneg_right ?_ hp.le).trans up1
      have : 1 + t ≤ Real.exp t := by linarith [Real.add_one_le_exp t]
      have h3 := pow_le_pow_left₀ hpos'.le this (m + 1)
      rw [← Real.exp_nat_mul, show ((m + 1 : Nat) : ℝ) * t = ρ by rw [ht]; field_simp] at h3
      exact h3.trans hexp

/-- One pass of the loop: the new relative residue. -/
theorem powFrac_step (ref : ℝ) (href : 0 < ref) (d : Int) (hd : d ≠ 0) (out : ℝ) (ho : 0 < out)
    (h : |ref / out ^ d - 1| ≤ 1 / 2) :
    0 < out + (ref / out ^ d - 1) * out / d ∧
      1 ≤ (out + (ref / out ^ d - 1) * out / d) ^ d / ref ∧
      (out + (ref / out ^ d - 1) * out / d) ^ d / ref ≤ 1 + 2 * (ref / out ^ d - 1) ^ 2 ∧
      |ref / (out + (ref / out ^ d - 1) * out / d) ^ d - 1| ≤ 2 * (ref / out ^ d - 1) ^ 2 := by
  set ρ := ref / out ^ d - 1 with hρ
  obtain ⟨g1, g2, g3⟩ := newton_gain d hd ρ h
  have hod : 0 < out ^ d := zpow_pos ho d
  have hnew : out + ρ * out / d = out * (1 + ρ / d) := by ring
  have hq : (out * (1 + ρ / d)) ^ d / ref = (1 + ρ / d) ^ d / (1 + ρ) := by
    have h1 : 1 + ρ = ref / out ^ d := by rw [hρ]; ring
    rw [mul_zpow, h1, div_div_eq_mul_div, mul_comm]
  rw [hnew, hq]
  refine ⟨mul_pos ho g1, g2, g3, ?_⟩
  have hinv : ref / (out * (1 + ρ / d)) ^ d = ((1 + ρ / d) ^ d / (1 + ρ))⁻¹ := by
    rw [← hq, inv_div]
  rw [hinv]
  set w := (1 + ρ / d) ^ d / (1 + ρ) with hw
  have hwp : 0 < w := by linarith
  rw [abs_le]
  constructor
  · have : 1 - 2 * ρ ^ 2 ≤ w⁻¹ := by
      rw [← one_div, le_div_iff₀ hwp]
      by_cases a : 0 ≤ 1 - 2 * ρ ^ 2
      · nlinarith [sq_nonneg ρ]
      · nlinarith [sq_nonneg ρ]
    linarith
  · have : w⁻¹ ≤ 1 := inv_le_one_of_one_le₀ g2
    nlinarith [sq_nonneg ρ]

/-- Distance of the result from the true power. -/
theorem near_power (x : ℝ) (hx : 0 < x) (n d : Int) (hd : d ≠ 0) (out ε : ℝ) (ho : 0 < out)
    (h1 : 1 ≤ out ^ d / x ^ n) (h2 : out ^ d / x ^ n ≤ 1 + ε) :
    |out / x ^ ((n : ℝ) / d) - 1| ≤ ε := by
  set y := x ^ ((n : ℝ) / d) with hy
  have hyp : 0 < y := Real.rpow_pos_of_pos hx _
  have hyd : y ^ d = x ^ n := by
    rw [hy, ← Real.rpow_intCast, ← Real.rpow_mul hx.le, ← Real.rpow_intCast]
    congr 1
    have : (d : ℝ) ≠ 0 := by exact_mod_cast hd
    field_simp
  set t := out / y with ht
  have htp : 0 < t := div_pos ho hyp
  have htd : out ^ d / x ^ n = t ^ d := by rw [← hyd, ht, div_zpow]
  rw [htd] at h1 h2
  have hε : 0 ≤ ε := by linarith
  have grow : ∀ (m : Nat) (a : ℝ), 1 ≤ a → a ≤ a ^ (m + 1) := by
    intro m a ha
    calc a = a ^ 1 := (pow_one a).symm
      _ ≤ a ^ (m + 1) := pow_le_pow_right₀ ha (by omega)
  rw [abs_le]
  rcases lt_or_gt_of_ne hd with hneg | hpos
  · obtain ⟨m, hm⟩ : ∃ m : Nat, d = -((m + 1 : Nat) : Int) := ⟨(-d).toNat - 1, by omega⟩
    rw [hm, zpow_neg, zpow_natCast, ← inv_pow] at h1 h2
    have ha : 1 ≤ t⁻¹ := by
      by_contra hc
      push Not at hc
      have := pow_lt_one₀ (inv_nonneg.2 htp.le) hc (Nat.succ_ne_zero m)
      exact absurd h1 (not_le.2 this)
    have hb : t⁻¹ ≤ 1 + ε := (grow m _ ha).trans h2
    have ht1 : t ≤ 1 := by
      rw [← inv_inv t]
      exact inv_le_one_of_one_le₀ ha
    have ht2 : 1 - ε ≤ t := by
      rw [inv_le_iff_one_le_mul₀ htp] at hb
      nlinarith
    constructor <;> linarith
  · obtain ⟨m, hm⟩ : ∃ m : Nat, d = ((m + 1 : Nat) : Int) := ⟨d.toNat - 1, by omega⟩
    rw [hm, zpow_natCast] at h1 h2
    have ha : 1 ≤ t := by
      by_contra hc
      push Not at hc
      have := pow_lt_one₀ htp.le hc (Nat.succ_ne_zero m)
      exact absurd h1 (not_le.2 this)
    have hb := (grow m _ ha).trans h2
    constructor <;> linarith

theorem powFracLoop_spec (ref : ℝ) (href : 0 < ref) (d : Int) (hd : d ≠ 0) (tol : ℝ) (fuel : Nat)
    (out r : ℝ) (ho : 0 < out) (h : |ref / out ^ d - 1| ≤ 1 / 4)
    (hr : powFracLoop ref d tol fuel out = some r) :
    0 < r ∧ 1 ≤ r ^ d / ref ∧ r ^ d / ref ≤ 1 + 2 * tol ^ 2 := by
  induction fuel generalizing out with
  | zero => exact absurd hr (by simp [powFracLoop])
  | succ fuel ih =>
    rw [powFracLoop, pow_int_eq] at hr
    obtain ⟨s1, s2, s3, s4⟩ := powFrac_step ref href d hd out ho (by linarith)
    by_cases a : tol < |ref / out ^ d - 1|
    · rw [if_pos a] at hr
      refine ih _ s1 ?_ hr
      refine s4.trans ?_
      have := sq_abs (ref / out ^ d - 1)
      nlinarith [abs_nonneg (ref / out ^ d - 1)]
    · rw [if_neg a] at hr
      obtain rfl := Option.some.inj hr
      refine ⟨s1, s2, s3.trans ?_⟩
      have h3 : (ref / out ^ d - 1) ^ 2 ≤ tol ^ 2 := by
        rw [← sq_abs]
        exact pow_le_pow_left₀ (abs_nonneg _) (not_lt.1 a) 2
      linarith

theorem powFracLoop_ends (ref : ℝ) (href : 0 < ref) (d : Int) (hd : d ≠ 0) (tol : ℝ) (N : Nat)
    (out : ℝ) (ho : 0 < out) (h : |ref / out ^ d - 1| ≤ 1 / 4)
    (hN : |ref / out ^ d - 1| * (1 / 2) ^ N ≤ tol) :
    ∃ r, powFracLoop ref d tol (N + 1) out = some r := by
  induction N generalizing out with
  | zero =>
    rw [powFracLoop, pow_int_eq, if_neg (by simpa using hN)]
    exact ⟨_, rfl⟩
  | succ N ih =>
    rw [powFracLoop, pow_int_eq]
    obtain ⟨s1, s2, s3, s4⟩ := powFrac_step ref href d hd out ho (by linarith)
    by_cases a : tol < |ref / out ^ d - 1|
    · rw [if_pos a]
      have hsq := sq_abs (ref / out ^ d - 1)
      have hh : 2 * (ref / out ^ d - 1) ^ 2 ≤ |ref / out ^ d - 1| * (1 / 2) := by
        nlinarith [abs_nonneg (ref / out ^ d - 1)]
      refine ih _ s1 (s4.trans ?_) ?_
      · nlinarith [abs_nonneg (ref / out ^ d - 1)]
      · refine le_trans ?_ hN
        rw [pow_succ, ← mul_assoc, mul_right_comm]
        exact mul_le_mul_of_nonneg_right (s4.trans hh) (by positivity)
    · rw [if_neg a]
      exact ⟨_, rfl⟩

/-- **C56**: fractional powers in high precision.  Started from a positive guess whose power is within
one quarter of the argument, the computation ends, and whatever it returns is the true power within a
relative error of twice the square of the tolerance. -/
theorem C56_power (x : ℝ) (hx : 0 < x) (n d : Int) (hd : d ≠ 0) (guess tol : ℝ) (hg : 0 < guess)
    (htol : 0 < tol) (h : |x ^ n / guess ^ d - 1| ≤ 1 / 4) :
    (∃ fuel r, pow_int_frac x n d guess tol fuel = some r) ∧
      ∀ fuel r, pow_int_frac x n d guess tol fuel = some r →
        |r / x ^ ((n : ℝ) / d) - 1| ≤ 2 * tol ^ 2 := by
  have href : 0 < x ^ n := zpow_pos hx n
  unfold pow_int_frac
  rw [pow_int_eq]
  constructor
  · obtain ⟨N, hN⟩ := exists_pow_lt_of_lt_one (mul_pos htol (by norm_num : (0 : ℝ) < 4))
      (by norm_num : (1 / 2 : ℝ) < 1)
    refine ⟨N + 1, powFracLoop_ends _ href d hd tol N guess hg h ?_⟩
    calc |x ^ n / guess ^ d - 1| * (1 / 2) ^ N ≤ 1 / 4 * (1 / 2) ^ N :=
          mul_le_mul_of_nonneg_right h (by positivity)
      _ ≤ tol := by linarith
  · intro fuel r hr
    obtain ⟨r1, r2, r3⟩ := powFracLoop_spec _ href d hd tol fuel guess r hg h hr
    exact near_power x hx n d hd r _ r1 r2 r3

/-- The hypothesis on the guess at a value and an exponent that are not trivial: `2^(-1/4)` from
`0.85`. -/
example : |(2 : ℝ) ^ (1 : Int) / (0.85 : ℝ) ^ (-4 : Int) - 1| ≤ 1 / 4 := by
  rw [zpow_one, zpow_neg, abs_le]
  norm_num

/-! ### Starting points -/

/-- Starting extrema: remez_algorithm.cpp:215-221 (`n` is `nzero_err_points`). -/
noncomputable def chebMax (n : Nat) (lo hi : ℝ) (i : Nat) : ℝ :=
  lo + (Real.exp (1 / 2 * (1 - Real.cos (Real.pi * i / n))) - 1) * ((hi - lo) / (Real.exp 1 - 1))

/-- Starting zeros: remez_algorithm.cpp:221. -/
noncomputable def chebZero (n : Nat) (lo hi : ℝ) (i : Nat) : ℝ :=
  lo + (Real.exp (1 / 2 * (1 - Real.cos (Real.pi * (2 * i + 1) / (2 * n)))) - 1) *
    ((hi - lo) / (Real.exp 1 - 1))

/-- The map from the angle to the interval. -/
noncomputable def chebAt (lo hi a : ℝ) : ℝ :=
  lo + (Real.exp (1 / 2 * (1 - Real.cos a)) - 1) * ((hi - lo) / (Real.exp 1 - 1))

theorem chebAt_mono (lo hi : ℝ) (h : lo ≤ hi) (a b : ℝ) (ha : 0 ≤ a) (hab : a ≤ b)
    (hb : b ≤ Real.pi) : chebAt lo hi a ≤ chebAt lo hi b := by
  unfold chebAt
  have hc : Real.cos b ≤ Real.cos a :=
    Real.cos_le_cos_of_nonneg_of_le_pi ha hb hab
  have he : Real.exp (1 / 2 * (1 - Real.cos a)) ≤ Real.exp (1 / 2 * (1 - Real.cos b)) :=
    Real.exp_le_exp.2 (by linarith)
  have h1 : 0 < Real.exp 1 - 1 := by
    have := Real.add_one_le_exp (1 : ℝ)
    linarith
  have h2 : 0 ≤ (hi - lo) / (Real.exp 1 - 1) := div_nonneg (by linarith) h1.le
  have := mul_le_mul_of_nonneg_right (sub_le_sub_right he 1) h2
  linarith

theorem chebAt_zero (lo hi : ℝ) : chebAt lo hi 0 = lo := by
  unfold chebAt
  rw [Real.cos_zero]
  norm_num

theorem chebAt_pi (lo hi : ℝ) : chebAt lo hi Real.pi = hi := by
  unfold chebAt
  rw [Real.cos_pi]
  have h1 : Real.exp 1 - 1 ≠ 0 := by
    have := Real.add_one_le_exp (1 : ℝ)
    intro h
    linarith
  norm_num
  field_simp
  ring

/-- **C56**: the starting extrema and zeros alternate, the first and last extrema being the ends of
the interval. -/
theorem C56_cheb (n : Nat) (hn : 0 < n) (lo hi : ℝ) (h : lo ≤ hi) :
    Interlaced (n + 1) lo hi (chebZero n lo hi) (chebMax n lo hi) ∧
      chebMax n lo hi 0 = lo ∧ chebMax n lo hi n = hi := by
  have hnp : (0 : ℝ) < n := by exact_mod_cast hn
  have hpi := Real.pi_pos
  have eM : ∀ i, chebMax n lo hi i = chebAt lo hi (Real.pi * i / n) := fun i => rfl
  have eZ : ∀ i, chebZero n lo hi i = chebAt lo hi (Real.pi * (2 * i + 1) / (2 * n)) := fun i => rfl
  have z : chebMax n lo hi 0 = lo := by rw [eM]; simp [chebAt_zero]
  have p : chebMax n lo hi n = hi := by
    rw [eM, mul_div_assoc, div_self hnp.ne', mul_one, chebAt_pi]
  refine ⟨fun i hi' => ⟨?_, ?_⟩, z, p⟩
  · by_cases a : i = 0
    · rw [if_pos a, a, z]
    · rw [if_neg a, eZ, eM]
      obtain ⟨j, rfl⟩ : ∃ j, i = j + 1 := ⟨i - 1, by omega⟩
      have hj : ((j : ℝ) + 1) ≤ n := by exact_mod_cast (by omega : j + 1 ≤ n)
      refine chebAt_mono lo hi h _ _ (by positivity) ?_ ?_
      · rw [Nat.add_sub_cancel, div_le_div_iff₀ (by positivity) hnp]
        push_cast
        nlinarith [mul_pos hpi hnp]
      · push_cast
        rw [div_le_iff₀ hnp]
        nlinarith
  · by_cases a : i = n
    · rw [a, if_pos (by omega), p]
    · rw [if_neg (by omega), eZ, eM]
      have hj : ((i : ℝ) + 1) ≤ n := by exact_mod_cast (by omega : i + 1 ≤ n)
      refine chebAt_mono lo hi h _ _ (by positivity) ?_ ?_
      · rw [div_le_div_iff₀ hnp (by positivity)]
        nlinarith [mul_pos hpi hnp]
      · rw [div_le_iff₀ (by positivity)]
        nlinarith

end Nissa.Remez
