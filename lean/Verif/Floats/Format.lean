import Mathlib.Data.Real.Basic
import Mathlib.Algebra.Order.Round
import Mathlib.Data.Int.Log
import Mathlib.Analysis.SpecialFunctions.Pow.Real
import Mathlib.Tactic

/-! # Binary floating point numbers

The numbers of a binary format with `p` binary digits and least exponent `emin` (53 and -1074 for `double`), gradual underflow included.
No largest number: overflow is not modelled.  A rounding is any function giving, for each real number, one of the nearest numbers of the
format (any rule for the ties, in particular that of the IEEE 754 default). -/

set_option linter.all false

namespace Nissa.Flt

noncomputable section

/-- a format: digits (at least 6) and least exponent -/
structure Fmt where
  p : ℕ
  emin : ℤ
  six : 6 ≤ p

/-- `double` -/
def binary64 : Fmt := ⟨53, -1074, by norm_num⟩

/-- the numbers of the format -/
def Fmt.F (f : Fmt) : Set ℝ := {x | ∃ m e : ℤ, x = m * (2 : ℝ) ^ e ∧ |m| < 2 ^ f.p ∧ f.emin ≤ e}

/-- `s` is one of the nearest numbers of the format to `x` -/
def Fmt.IsRN (f : Fmt) (x s : ℝ) : Prop := s ∈ f.F ∧ ∀ y ∈ f.F, |x - s| ≤ |x - y|

/-- a rounding to nearest -/
structure Rounding (f : Fmt) where
  rnd : ℝ → ℝ
  nearest : ∀ x, f.IsRN x (rnd x)

/-- integer multiples of a power of two -/
def Mul (k : ℤ) (x : ℝ) : Prop := ∃ m : ℤ, x = m * (2 : ℝ) ^ k

/-! ### powers of two and multiples -/

theorem two_pos (k : ℤ) : (0 : ℝ) < 2 ^ k := by positivity

theorem two_add (a b : ℤ) : (2 : ℝ) ^ (a + b) = 2 ^ a * 2 ^ b := zpow_add₀ (by norm_num) a b

theorem two_nat (n : ℕ) : (2 : ℝ) ^ (n : ℤ) = 2 ^ n := zpow_natCast _ _

theorem two_mono {a b : ℤ} (h : a ≤ b) : (2 : ℝ) ^ a ≤ 2 ^ b := zpow_le_zpow_right₀ (by norm_num) h

theorem two_lt {a b : ℤ} : (2 : ℝ) ^ a < 2 ^ b ↔ a < b := zpow_lt_zpow_iff_right₀ (by norm_num)

theorem two_le {a b : ℤ} : (2 : ℝ) ^ a ≤ 2 ^ b ↔ a ≤ b := zpow_le_zpow_iff_right₀ (by norm_num)

theorem two_succ (k : ℤ) : (2 : ℝ) ^ (k + 1) = 2 * 2 ^ k := by rw [two_add]; norm_num; ring

theorem two_pred (k : ℤ) : (2 : ℝ) ^ k = 2 * 2 ^ (k - 1) := by rw [← two_succ]; congr 1; ring

theorem Mul.zero (k : ℤ) : Mul k 0 := ⟨0, by simp⟩

theorem Mul.neg {k : ℤ} {x : ℝ} (h : Mul k x) : Mul k (-x) := by
  obtain ⟨m, rfl⟩ := h; exact ⟨-m, by push_cast; ring⟩

theorem Mul.add {k : ℤ} {x y : ℝ} (h : Mul k x) (h' : Mul k y) : Mul k (x + y) := by
  obtain ⟨m, rfl⟩ := h; obtain ⟨n, rfl⟩ := h'; exact ⟨m + n, by push_cast; ring⟩

theorem Mul.sub {k : ℤ} {x y : ℝ} (h : Mul k x) (h' : Mul k y) : Mul k (x - y) := by
  rw [sub_eq_add_neg]; exact h.add h'.neg

theorem Mul.mul {k l : ℤ} {x y : ℝ} (h : Mul k x) (h' : Mul l y) : Mul (k + l) (x * y) := by
  obtain ⟨m, rfl⟩ := h; obtain ⟨n, rfl⟩ := h'; exact ⟨m * n, by push_cast; rw [two_add]; ring⟩

theorem Mul.mono {k l : ℤ} (hl : l ≤ k) {x : ℝ} (h : Mul k x) : Mul l x := by
  obtain ⟨m, rfl⟩ := h
  obtain ⟨n, rfl⟩ := Int.le.dest hl
  refine ⟨m * 2 ^ n, ?_⟩
  rw [two_add, two_nat]; push_cast; ring

theorem Mul.pow (k : ℤ) : Mul k ((2 : ℝ) ^ k) := ⟨1, by simp⟩

/-- a multiple of `2^k` smaller than `2^(n+k)` in modulus is at least `2^k` below -/
theorem Mul.gap {k : ℤ} {n : ℕ} {x : ℝ} (h : Mul k x) (hx : |x| < 2 ^ ((n : ℤ) + k)) : |x| ≤ 2 ^ ((n : ℤ) + k) - 2 ^ k := by
  obtain ⟨m, rfl⟩ := h
  have hp := two_pos k
  rw [abs_mul, abs_of_pos hp, two_add, two_nat] at hx ⊢
  have h1 : |(m : ℝ)| < 2 ^ n := lt_of_mul_lt_mul_right hx hp.le
  have h2 : |m| < 2 ^ n := by exact_mod_cast h1
  have h3 : |m| ≤ 2 ^ n - 1 := by omega
  have h4 : |(m : ℝ)| ≤ 2 ^ n - 1 := by exact_mod_cast h3
  nlinarith

/-- a multiple of `2^k` beyond less than one unit from `2^(n+k)` does not exceed it -/
theorem Mul.cut {k : ℤ} {n : ℕ} {x : ℝ} (h : Mul k x) (hx : |x| < 2 ^ ((n : ℤ) + k) + 2 ^ k) : |x| ≤ 2 ^ ((n : ℤ) + k) := by
  obtain ⟨m, rfl⟩ := h
  have hp := two_pos k
  rw [abs_mul, abs_of_pos hp, two_add, two_nat] at hx ⊢
  have h1 : |(m : ℝ)| < 2 ^ n + 1 := by
    by_contra hc
    push Not at hc
    nlinarith
  have h2 : |m| < 2 ^ n + 1 := by exact_mod_cast h1
  have h3 : |m| ≤ 2 ^ n := by omega
  have h4 : |(m : ℝ)| ≤ 2 ^ n := by exact_mod_cast h3
  nlinarith

variable {f : Fmt}

theorem F.neg {x : ℝ} (h : x ∈ f.F) : -x ∈ f.F := by
  obtain ⟨m, e, rfl, h1, h2⟩ := h
  exact ⟨-m, e, by push_cast; ring, by rwa [abs_neg], h2⟩

theorem F.zero : (0 : ℝ) ∈ f.F := ⟨0, f.emin, by simp, by simp, le_refl _⟩

theorem F.mulMin {x : ℝ} (h : x ∈ f.F) : Mul f.emin x := by
  obtain ⟨m, e, rfl, h1, h2⟩ := h
  exact Mul.mono h2 ⟨m, rfl⟩

/-- multiples of a power of two which are not too large are in the format -/
theorem F.of_mul {k : ℤ} {x : ℝ} (hk : f.emin ≤ k) (h : Mul k x) (hx : |x| ≤ 2 ^ ((f.p : ℤ) + k)) : x ∈ f.F := by
  rcases hx.lt_or_eq with hx | hx
  · obtain ⟨m, rfl⟩ := h
    refine ⟨m, k, rfl, ?_, hk⟩
    rw [abs_mul, abs_of_pos (two_pos k), two_add, two_nat] at hx
    have := lt_of_mul_lt_mul_right hx (two_pos k).le
    exact_mod_cast this
  · have h6 := f.six
    obtain ⟨q, hq⟩ : ∃ q, f.p = q + 1 := ⟨f.p - 1, by omega⟩
    have e : (2 : ℝ) ^ ((f.p : ℤ) + k) = (2 ^ q : ℤ) * (2 : ℝ) ^ (k + 1) := by
      rw [hq, two_add, two_nat, two_succ]; push_cast; ring
    rcases abs_choice x with hc | hc <;> rw [hc] at hx
    · refine ⟨2 ^ q, k + 1, by rw [hx, e], ?_, by omega⟩
      rw [hq, abs_of_pos (by positivity)]
      exact pow_lt_pow_right₀ (by norm_num) (by omega)
    · refine ⟨-2 ^ q, k + 1, by rw [show x = -(-x) by ring, hx, e]; push_cast; ring, ?_, by omega⟩
      rw [hq, abs_neg, abs_of_pos (by positivity)]
      exact pow_lt_pow_right₀ (by norm_num) (by omega)

theorem F.pow {k : ℤ} (hk : f.emin ≤ k) : (2 : ℝ) ^ k ∈ f.F := by
  refine F.of_mul hk (Mul.pow k) ?_
  rw [abs_of_pos (two_pos k)]
  exact two_mono (by omega)

/-- the exponent of a number which is not zero -/
theorem exp_exists {x : ℝ} (hx : x ≠ 0) (p : ℕ) : ∃ e : ℤ, (2 : ℝ) ^ ((p : ℤ) - 1 + e) ≤ |x| ∧ |x| < 2 ^ ((p : ℤ) + e) := by
  have h := abs_pos.2 hx
  obtain ⟨n, h1, h2⟩ := exists_mem_Ico_zpow h (by norm_num : (1 : ℝ) < 2)
  refine ⟨n + 1 - p, ?_, ?_⟩
  · rwa [show (p : ℤ) - 1 + (n + 1 - p) = n by ring]
  · rwa [show (p : ℤ) + (n + 1 - p) = n + 1 by ring]

/-- a number of the format which is large enough is a multiple -/
theorem F.mul_of_ge {k : ℤ} {x : ℝ} (h : x ∈ f.F) (hx : (2 : ℝ) ^ ((f.p : ℤ) - 1 + k) ≤ |x|) : Mul k x := by
  obtain ⟨m, e, rfl, h1, h2⟩ := h
  have hp := two_pos e
  refine Mul.mono ?_ ⟨m, rfl⟩
  rw [abs_mul, abs_of_pos hp] at hx
  have h3 : |(m : ℝ)| < 2 ^ f.p := by exact_mod_cast h1
  have h4 : |(m : ℝ)| * 2 ^ e < 2 ^ ((f.p : ℤ) + e) := by
    rw [two_add, two_nat]; exact mul_lt_mul_of_pos_right h3 hp
  have := two_lt.1 (lt_of_le_of_lt hx h4)
  omega

/-- canonical writing -/
theorem F.canon {x : ℝ} (h : x ∈ f.F) : ∃ e : ℤ, f.emin ≤ e ∧ Mul e x ∧ |x| < 2 ^ ((f.p : ℤ) + e) ∧ (e = f.emin ∨ (2 : ℝ) ^ ((f.p : ℤ) - 1 + e) ≤ |x|) := by
  by_cases hx : x = 0
  · subst hx
    exact ⟨f.emin, le_refl _, Mul.zero _, by rw [abs_zero]; exact two_pos _, .inl rfl⟩
  · obtain ⟨e, h1, h2⟩ := exp_exists hx f.p
    rcases le_total f.emin e with he | he
    · exact ⟨e, he, F.mul_of_ge h h1, h2, .inr h1⟩
    · exact ⟨f.emin, le_refl _, F.mulMin h, lt_of_lt_of_le h2 (two_mono (by omega)), .inl rfl⟩

/-! ### rounding -/

/-- rounding to integer is monotone -/
theorem round_le_round {a b : ℝ} (h : a ≤ b) : round a ≤ round b := by
  rw [round_eq, round_eq]; exact Int.floor_le_floor (by linarith)

theorem Fmt.IsRN.neg {x s : ℝ} (h : f.IsRN x s) : f.IsRN (-x) (-s) := by
  refine ⟨F.neg h.1, fun y hy => ?_⟩
  have := h.2 (-y) (F.neg hy)
  rw [show -x - -s = -(x - s) by ring, abs_neg, show -x - y = -(x - -y) by ring, abs_neg]
  exact this

theorem Fmt.IsRN.eq {x s : ℝ} (h : f.IsRN x s) (hx : x ∈ f.F) : s = x := by
  have := h.2 x hx
  rw [sub_self, abs_zero] at this
  have := abs_nonpos_iff.1 this
  linarith

theorem Fmt.IsRN.le {x s y : ℝ} (h : f.IsRN x s) (hy : y ∈ f.F) (hxy : x ≤ y) : s ≤ y := by
  by_contra hc
  push Not at hc
  have := h.2 y hy
  rw [abs_of_nonpos (by linarith), abs_of_nonpos (by linarith)] at this
  linarith

theorem Fmt.IsRN.ge {x s y : ℝ} (h : f.IsRN x s) (hy : y ∈ f.F) (hxy : y ≤ x) : y ≤ s := by
  by_contra hc
  push Not at hc
  have := h.2 y hy
  rw [abs_of_nonneg (by linarith), abs_of_nonneg (by linarith)] at this
  linarith

theorem Fmt.IsRN.abs_ge {x s y : ℝ} (h : f.IsRN x s) (hy : y ∈ f.F) (hxy : y ≤ |x|) : y ≤ |s| := by
  rcases abs_choice x with hc | hc <;> rw [hc] at hxy
  · exact (h.ge hy hxy).trans (le_abs_self _)
  · exact ((Fmt.IsRN.neg h).ge hy hxy).trans (neg_le_abs _)

theorem Fmt.IsRN.abs_le {x s y : ℝ} (h : f.IsRN x s) (hy : y ∈ f.F) (hxy : |x| ≤ y) : |s| ≤ y := by
  rw [_root_.abs_le] at hxy ⊢
  exact ⟨h.ge (F.neg hy) hxy.1, h.le hy hxy.2⟩

/-- rounding keeps the multiples -/
theorem Fmt.IsRN.mul {k : ℤ} {x s : ℝ} (h : f.IsRN x s) (hk : f.emin ≤ k) (hx : Mul k x) : Mul k s := by
  by_cases hc : |x| ≤ 2 ^ ((f.p : ℤ) + k)
  · rw [h.eq (F.of_mul hk hx hc)]; exact hx
  · push Not at hc
    have h6 := f.six
    have := h.abs_ge (F.pow (k := (f.p : ℤ) + k) (by omega)) hc.le
    exact F.mul_of_ge h.1 (le_trans (two_mono (by omega)) this)

/-- absolute error -/
theorem Fmt.IsRN.err {k : ℤ} {x s : ℝ} (h : f.IsRN x s) (hk : f.emin ≤ k) (hx : |x| ≤ 2 ^ ((f.p : ℤ) + k)) : |x - s| ≤ 2 ^ (k - 1) := by
  have hp := two_pos k
  have e : |x / 2 ^ k| ≤ 2 ^ f.p := by
    rw [abs_div, abs_of_pos hp, div_le_iff₀ hp, ← two_nat, ← two_add]; exact hx
  have hr : |round (x / 2 ^ k)| ≤ (2 ^ f.p : ℤ) := by
    rw [_root_.abs_le] at e ⊢
    have a := round_le_round e.2
    have b := round_le_round e.1
    have c1 : round ((2 : ℝ) ^ f.p) = 2 ^ f.p := by
      have := round_intCast (α := ℝ) (2 ^ f.p); push_cast at this; exact this
    have c2 : round (-(2 : ℝ) ^ f.p) = -2 ^ f.p := by
      have := round_intCast (α := ℝ) (-2 ^ f.p); push_cast at this; exact this
    rw [c1] at a; rw [c2] at b
    exact ⟨b, a⟩
  have hy : (round (x / 2 ^ k) : ℝ) * 2 ^ k ∈ f.F := by
    refine F.of_mul hk ⟨_, rfl⟩ ?_
    rw [abs_mul, abs_of_pos hp, two_add, two_nat]
    have : |((round (x / 2 ^ k) : ℤ) : ℝ)| ≤ 2 ^ f.p := by exact_mod_cast hr
    exact mul_le_mul_of_nonneg_right this hp.le
  refine (h.2 _ hy).trans ?_
  have h1 := abs_sub_round (x / (2 : ℝ) ^ k)
  have h2 : x - (round (x / 2 ^ k) : ℝ) * 2 ^ k = (x / 2 ^ k - round (x / 2 ^ k)) * 2 ^ k := by field_simp
  rw [h2, abs_mul, abs_of_pos hp]
  have := two_pred k
  nlinarith

/-- absolute error, for numbers on the grid of the smallest numbers -/
theorem Fmt.IsRN.err' {k : ℤ} {x s : ℝ} (h : f.IsRN x s) (hm : Mul f.emin x) (hx : |x| ≤ 2 ^ ((f.p : ℤ) + k)) : |x - s| ≤ 2 ^ (k - 1) := by
  rcases le_total f.emin k with hk | hk
  · exact h.err hk hx
  · rw [h.eq (F.of_mul le_rfl hm (hx.trans (two_mono (by omega)))), sub_self, abs_zero]
    exact (two_pos _).le

/-- the unit of roundoff -/
def Fmt.u (f : Fmt) : ℝ := 2 ^ (-(f.p : ℤ))

theorem u_pos : 0 < f.u := two_pos _

theorem u_small : f.u ≤ 1 / 64 := by
  have h6 := f.six
  unfold Fmt.u
  calc (2 : ℝ) ^ (-(f.p : ℤ)) ≤ 2 ^ (-6 : ℤ) := two_mono (by omega)
    _ = 1 / 64 := by norm_num

/-- relative error, for the numbers on the grid of the smallest numbers (sums are) -/
theorem Fmt.IsRN.rel {x s : ℝ} (h : f.IsRN x s) (hm : Mul f.emin x) : |x - s| ≤ f.u * |x| := by
  by_cases hx : x = 0
  · rw [h.eq (by rw [hx]; exact F.zero), sub_self, abs_zero]
    exact mul_nonneg u_pos.le (abs_nonneg _)
  · obtain ⟨e, h1, h2⟩ := exp_exists hx f.p
    refine (h.err' hm h2.le).trans ?_
    have : (2 : ℝ) ^ (e - 1) = f.u * 2 ^ ((f.p : ℤ) - 1 + e) := by
      unfold Fmt.u; rw [← two_add]; congr 1; ring
    rw [this]
    exact mul_le_mul_of_nonneg_left h1 u_pos.le

/-! ### the error of a sum, and when a difference is exact -/

/-- the error of the sum of two numbers of the format is in the format -/
theorem err_mem {a b s : ℝ} (ha : a ∈ f.F) (hb : b ∈ f.F) (h : f.IsRN (a + b) s) : a + b - s ∈ f.F := by
  have key : ∀ {a b : ℝ}, a ∈ f.F → b ∈ f.F → ∀ ka kb : ℤ, Mul ka a → Mul kb b → f.emin ≤ kb → kb ≤ ka → |b| < 2 ^ ((f.p : ℤ) + kb) → f.IsRN (a + b) s → a + b - s ∈ f.F := by
    intro a b ha hb ka kb ma mb hk hle hb2 h
    refine F.of_mul hk (((ma.mono hle).add mb).sub (h.mul hk ((ma.mono hle).add mb))) ?_
    refine (h.2 a ha).trans ?_
    rw [show a + b - a = b by ring]
    exact hb2.le
  obtain ⟨ka, a1, a2, a3, -⟩ := F.canon ha
  obtain ⟨kb, b1, b2, b3, -⟩ := F.canon hb
  rcases le_total kb ka with hle | hle
  · exact key ha hb ka kb a2 b2 b1 hle b3 h
  · rw [add_comm] at h ⊢
    exact key hb ha kb ka b2 a2 a1 hle a3 h

/-- Sterbenz: the difference of two numbers is exact if it is not larger than both -/
theorem sterbenz {x y : ℝ} (hx : x ∈ f.F) (hy : y ∈ f.F) (h1 : |x - y| ≤ |x|) (h2 : |x - y| ≤ |y|) : x - y ∈ f.F := by
  obtain ⟨kx, a1, a2, a3, -⟩ := F.canon hx
  obtain ⟨ky, b1, b2, b3, -⟩ := F.canon hy
  rcases le_total kx ky with hle | hle
  · exact F.of_mul a1 (a2.sub (b2.mono hle)) (h1.trans a3.le)
  · exact F.of_mul b1 ((a2.mono hle).sub b2) (h2.trans b3.le)

/-- Dekker: when `a` is a multiple of a unit of which `b` has at most `p` digits, the difference between the rounded sum and `a` is exact -/
theorem dekker_sub {a b s : ℝ} {k : ℤ} (ha : a ∈ f.F) (hk : f.emin ≤ k) (ma : Mul k a) (mb : Mul k b) (hb : |b| < 2 ^ ((f.p : ℤ) + k)) (h : f.IsRN (a + b) s) :
    s - a ∈ f.F := by
  by_cases hc : |a + b| ≤ 2 ^ ((f.p : ℤ) + k)
  · rw [h.eq (F.of_mul hk (ma.add mb) hc), show a + b - a = b by ring]
    exact F.of_mul hk mb hb.le
  · push Not at hc
    have hne : a + b ≠ 0 := by
      rintro h0
      rw [h0, abs_zero] at hc
      exact absurd hc (not_lt.2 (two_pos _).le)
    obtain ⟨e, h1, h2⟩ := exp_exists hne f.p
    have hek : k + 1 ≤ e := by
      have := two_lt.1 (lt_trans hc h2)
      omega
    have herr := h.err (k := e) (by omega) h2.le
    have hs : |s - a| ≤ |b| + 2 ^ (e - 1) := by
      calc |s - a| = |b - (a + b - s)| := by congr 1; ring
        _ ≤ |b| + |a + b - s| := abs_sub _ _
        _ ≤ _ := by linarith
    have h6 := f.six
    rcases eq_or_lt_of_le hek with he | he
    · refine F.of_mul hk ((h.mul hk (ma.add mb)).sub ma) ?_
      have := mb.gap hb
      rw [← he, show k + 1 - 1 = k by ring] at hs
      linarith
    · have hsm : Mul e s := F.mul_of_ge h.1 (h.abs_ge (F.pow (by omega)) h1)
      have hbig : (2 : ℝ) ^ ((f.p : ℤ) - 1 + (e - 1)) ≤ |a| := by
        have t1 : |a + b| ≤ |a| + |b| := abs_add_le _ _
        have t2 : |b| ≤ 2 ^ ((f.p : ℤ) - 1 + (e - 1)) := hb.le.trans (two_mono (by omega))
        have t3 : (2 : ℝ) ^ ((f.p : ℤ) - 1 + e) = 2 * 2 ^ ((f.p : ℤ) - 1 + (e - 1)) := by
          rw [two_pred]; congr 2; ring
        linarith
      have ham : Mul (e - 1) a := F.mul_of_ge ha hbig
      refine F.of_mul (k := e - 1) (by omega) ((hsm.mono (by omega)).sub ham) (hs.trans ?_)
      have t2 : |b| ≤ 2 ^ ((f.p : ℤ) - 1 + (e - 1)) := hb.le.trans (two_mono (by omega))
      have t3 : (2 : ℝ) ^ ((f.p : ℤ) + (e - 1)) = 2 * 2 ^ ((f.p : ℤ) - 1 + (e - 1)) := by
        rw [two_pred]; congr 2; ring
      have t4 : (2 : ℝ) ^ (e - 1) ≤ 2 ^ ((f.p : ℤ) - 1 + (e - 1)) := two_mono (by omega)
      linarith

/-! ### a rounding exists -/

theorem nearest_exists (x : ℝ) : ∃ s, f.IsRN x s := by
  -- numbers of the format around `x`
  obtain ⟨k, hk, hx⟩ : ∃ k : ℤ, f.emin ≤ k ∧ |x| ≤ 2 ^ ((f.p : ℤ) + k) ∧ (k = f.emin ∨ (2 : ℝ) ^ ((f.p : ℤ) - 1 + k) ≤ |x|) := by
    by_cases hx : x = 0
    · exact ⟨f.emin, le_rfl, by rw [hx, abs_zero]; exact (two_pos _).le, .inl rfl⟩
    · obtain ⟨e, h1, h2⟩ := exp_exists hx f.p
      rcases le_total f.emin e with he | he
      · exact ⟨e, he, h2.le, .inr h1⟩
      · exact ⟨f.emin, le_rfl, h2.le.trans (two_mono (by omega)), .inl rfl⟩
  obtain ⟨hx, hlow⟩ := hx
  have hp := two_pos k
  have h6 := f.six
  have e : |x / 2 ^ k| ≤ 2 ^ f.p := by
    rw [abs_div, abs_of_pos hp, div_le_iff₀ hp, ← two_nat, ← two_add]; exact hx
  have hr : |round (x / 2 ^ k)| ≤ (2 ^ f.p : ℤ) := by
    rw [_root_.abs_le] at e ⊢
    have a := round_le_round e.2
    have b := round_le_round e.1
    have c1 : round ((2 : ℝ) ^ f.p) = 2 ^ f.p := by
      have := round_intCast (α := ℝ) (2 ^ f.p); push_cast at this; exact this
    have c2 : round (-(2 : ℝ) ^ f.p) = -2 ^ f.p := by
      have := round_intCast (α := ℝ) (-2 ^ f.p); push_cast at this; exact this
    rw [c1] at a; rw [c2] at b
    exact ⟨b, a⟩
  refine ⟨(round (x / 2 ^ k) : ℝ) * 2 ^ k, ?_, ?_⟩
  · refine F.of_mul hk ⟨_, rfl⟩ ?_
    rw [abs_mul, abs_of_pos hp, two_add, two_nat]
    have : |((round (x / 2 ^ k) : ℤ) : ℝ)| ≤ 2 ^ f.p := by exact_mod_cast hr
    exact mul_le_mul_of_nonneg_right this hp.le
  · intro y hy
    -- a number of the format on the same grid, or closer to zero
    have grid : ∀ m : ℤ, |x - round (x / 2 ^ k) * 2 ^ k| ≤ |x - m * 2 ^ k| := by
      intro m
      have h1 := round_le (x / (2 : ℝ) ^ k) m
      have e1 : x - round (x / 2 ^ k) * 2 ^ k = (x / 2 ^ k - round (x / 2 ^ k)) * 2 ^ k := by field_simp
      have e2 : x - m * 2 ^ k = (x / 2 ^ k - m) * 2 ^ k := by field_simp
      rw [e1, e2, abs_mul, abs_mul]
      exact mul_le_mul_of_nonneg_right h1 (abs_nonneg _)
    have viaMul : Mul k y → |x - round (x / 2 ^ k) * 2 ^ k| ≤ |x - y| := by
      rintro ⟨m, rfl⟩; exact grid m
    rcases hlow with h0 | h0
    · exact viaMul (by rw [h0]; exact F.mulMin hy)
    · by_cases hyb : (2 : ℝ) ^ ((f.p : ℤ) - 1 + k) ≤ |y|
      · exact viaMul (F.mul_of_ge hy hyb)
      · push Not at hyb
        -- the power of two with the sign of `x` is on the grid and closer
        have hg : ∃ m : ℤ, (2 : ℝ) ^ ((f.p : ℤ) - 1 + k) = m * 2 ^ k := by
          refine ⟨2 ^ (f.p - 1), ?_⟩
          rw [two_add]; push_cast
          congr 1
          rw [← two_nat, Nat.cast_sub (by omega)]; norm_num
        obtain ⟨m, hm⟩ := hg
        rw [_root_.abs_lt] at hyb
        rcases abs_choice x with hc | hc <;> rw [hc] at h0
        · refine (grid m).trans ?_
          rw [← hm, abs_of_nonneg (by linarith), abs_of_nonneg (by linarith)]
          linarith
        · refine (grid (-m)).trans ?_
          push_cast
          rw [neg_mul, ← hm, abs_of_nonpos (by linarith), abs_of_nonpos (by linarith)]
          linarith

/-- there are roundings to nearest -/
theorem rounding_exists (f : Fmt) : Nonempty (Rounding f) := ⟨⟨fun x => (nearest_exists x).choose, fun x => (nearest_exists x).choose_spec⟩⟩

end

end Nissa.Flt
