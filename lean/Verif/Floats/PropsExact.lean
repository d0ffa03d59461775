import Verif.Floats.Float128
import Mathlib.Algebra.BigOperators.Fin
import Mathlib.LinearAlgebra.Matrix.Notation

/-! # C61: the error of a sum or of a product is computed exactly -/

set_option linter.all false

namespace Nissa.Flt

noncomputable section

variable {f : Fmt} (R : Rounding f)

theorem rnd_mem (x : ℝ) : R.rnd x ∈ f.F := (R.nearest x).1

theorem rnd_eq {x : ℝ} (h : x ∈ f.F) : R.rnd x = x := (R.nearest x).eq h

/-- the quick sum is exact when the first number is a multiple of a unit of which the second has at most `p` digits -/
theorem quick_exact {a b : ℝ} {k : ℤ} (ha : a ∈ f.F) (hk : f.emin ≤ k) (ma : Mul k a) (mb : Mul k b) (hb : |b| < 2 ^ ((f.p : ℤ) + k)) :
    R.sub b (R.sub (R.add a b) a) = a + b - R.add a b := by
  have hbm : b ∈ f.F := F.of_mul hk mb hb.le
  have h := R.nearest (a + b)
  unfold Rounding.sub Rounding.add
  rw [rnd_eq R (dekker_sub ha hk ma mb hb h)]
  have := err_mem ha hbm h
  rw [show b - (R.rnd (a + b) - a) = a + b - R.rnd (a + b) by ring, rnd_eq R this]

/-- C61: `quick_two_summ` gives the rounded sum and its exact error if the second number is not larger than the first. -/
theorem C61_quick_two_summ {a b : ℝ} (ha : a ∈ f.F) (hb : b ∈ f.F) (hle : |b| ≤ |a|) :
    f.IsRN (a + b) (quick_two_summ R a b).1 ∧ (quick_two_summ R a b).1 + (quick_two_summ R a b).2 = a + b ∧ (quick_two_summ R a b).2 ∈ f.F := by
  refine ⟨R.nearest _, ?_, rnd_mem R _⟩
  obtain ⟨k, k1, k2, k3, k4⟩ := F.canon hb
  have ma : Mul k a := by
    rcases k4 with h | h
    · rw [h]; exact F.mulMin ha
    · exact F.mul_of_ge ha (h.trans hle)
  unfold quick_two_summ
  simp only
  rw [quick_exact R ha k1 ma k2 k3]
  ring

theorem two_sum_exact {a b : ℝ} (ha : a ∈ f.F) (hb : b ∈ f.F) :
    R.add (R.sub b (R.sub (R.add a b) a)) (R.sub a (R.sub (R.add a b) (R.sub (R.add a b) a))) = a + b - R.add a b := by
  obtain ⟨ka, a1, a2, a3, a4⟩ := F.canon ha
  obtain ⟨kb, b1, b2, b3, b4⟩ := F.canon hb
  have h := R.nearest (a + b)
  have herr := err_mem ha hb h
  unfold Rounding.sub Rounding.add
  generalize R.rnd (a + b) = s at h herr ⊢
  rcases le_or_gt kb ka with hle | hlt
  · have h1 := dekker_sub ha b1 (a2.mono hle) b2 b3 h
    rw [rnd_eq R h1, show s - (s - a) = a by ring, rnd_eq R ha, sub_self, rnd_eq R F.zero, show b - (s - a) = a + b - s by ring, rnd_eq R herr, add_zero, rnd_eq R herr]
  · -- the first is smaller
    have hnorm : (2 : ℝ) ^ ((f.p : ℤ) - 1 + kb) ≤ |b| := by
      rcases b4 with h | h
      · omega
      · exact h
    have hab : |a| ≤ |b| := a3.le.trans ((two_mono (by omega)).trans hnorm)
    have ms : Mul ka s := h.mul a1 (a2.add (b2.mono hlt.le))
    have h' : f.IsRN (s + -a) (R.rnd (s - a)) := by
      have := R.nearest (s - a)
      rwa [sub_eq_add_neg] at this ⊢
    have e1 := dekker_sub h.1 a1 ms a2.neg (by rw [abs_neg]; exact a3) h'
    have e2 := err_mem h.1 (F.neg ha) h'
    generalize R.rnd (s - a) = b' at h' e1 e2 ⊢
    -- b-b' is exact
    have hd : |a + b - s| ≤ f.u * |a + b| := h.rel ((F.mulMin ha).add (F.mulMin hb))
    have hu := u_small (f := f)
    have hu0 := u_pos (f := f)
    have hd2 : |a + b - s| ≤ |b| / 4 := by
      have : |a + b| ≤ 2 * |b| := (abs_add_le _ _).trans (by linarith)
      nlinarith [abs_nonneg b]
    have hb' : |b - b'| ≤ |b| / 2 := by
      have t1 := h'.2 b hb
      have t2 : |s + -a - b| = |a + b - s| := by rw [← abs_neg]; congr 1; ring
      have t3 : |b - b'| ≤ |b - (s + -a)| + |s + -a - b'| := abs_sub_le _ _ _
      rw [abs_sub_comm b (s + -a)] at t3
      linarith
    have e3 : b - b' ∈ f.F := by
      refine sterbenz hb h'.1 (by linarith [abs_nonneg b]) ?_
      have : |b| ≤ |b - b'| + |b'| := by
        have := abs_add_le (b - b') b'
        rwa [sub_add_cancel] at this
      linarith
    have e4 : s - b' ∈ f.F := by
      have := F.neg e1
      rwa [neg_sub] at this
    have e5 : a - (s - b') ∈ f.F := by
      have := F.neg e2
      rwa [show -(s + -a - b') = a - (s - b') by ring] at this
    rw [rnd_eq R e3, rnd_eq R e4, rnd_eq R e5, show b - b' + (a - (s - b')) = a + b - s by ring, rnd_eq R herr]

/-- C61: `two_summ` gives the rounded sum and its exact error, for any two numbers in any order, underflow included. -/
theorem C61_two_summ {a b : ℝ} (ha : a ∈ f.F) (hb : b ∈ f.F) :
    f.IsRN (a + b) (two_summ R a b).1 ∧ (two_summ R a b).1 + (two_summ R a b).2 = a + b ∧ (two_summ R a b).2 ∈ f.F := by
  refine ⟨R.nearest _, ?_, rnd_mem R _⟩
  have := two_sum_exact R ha hb
  unfold two_summ
  simp only
  unfold Rounding.add at this ⊢
  rw [add_comm (R.sub a _)]
  rw [this]; ring

/-- C61: the same for `Float128::sum`: the result is the exact sum, written as its rounding and the rest. -/
theorem C61_sum_of_doubles {a b : ℝ} (ha : a ∈ f.F) (hb : b ∈ f.F) :
    (DD.sum2 R a b).val = a + b ∧ f.IsRN (a + b) (DD.sum2 R a b).hi ∧ (DD.sum2 R a b).lo ∈ f.F := by
  have h := R.nearest (a + b)
  have herr := err_mem ha hb h
  have e := two_sum_exact R ha hb
  unfold DD.val DD.sum2
  simp only
  rw [e]
  unfold Rounding.add Rounding.sub
  rw [show R.rnd (a + b) + (a + b - R.rnd (a + b)) = a + b by ring, sub_self, rnd_eq R F.zero, sub_zero, rnd_eq R herr]
  exact ⟨by ring, h, herr⟩

/-! ### splitting of a number in two halves, and exact products -/

/-- the difference between the number multiplied by the constant and the number -/
theorem velt_gx {x g : ℝ} {s q t : ℕ} {e m : ℤ} (hq : f.p = q + 1) (ht : s = t + 1) (h2 : 2 ≤ s) (hs : s + 2 ≤ f.p) (heq : f.emin ≤ e + q) (mC : Mul f.emin (((2 : ℝ) ^ s + 1) * x))
    (hm : x = m * (2 : ℝ) ^ e) (hmlow : (2 : ℝ) ^ q ≤ m) (hmhigh : (m : ℝ) + 1 ≤ 2 ^ (q + 1)) (hg : f.IsRN (((2 : ℝ) ^ s + 1) * x) g) :
    2 ^ q * 2 ^ s * (2 : ℝ) ^ e ≤ g - x ∧ g - x ≤ 2 ^ (q + 1) * 2 ^ s * (2 : ℝ) ^ e := by
  generalize hE : (2 : ℝ) ^ e = E at hm ⊢
  have hE0 : 0 < E := by rw [← hE]; exact two_pos e
  have hS0 : (0 : ℝ) < 2 ^ s := by positivity
  have hQ0 : (0 : ℝ) < 2 ^ q := by positivity
  have hm00 : (0 : ℝ) < m := lt_of_lt_of_le hQ0 hmlow
  have hxpos : 0 < x := by rw [hm]; exact _root_.mul_pos hm00 hE0
  have hS : (2 : ℝ) ^ s = 2 * 2 ^ t := by rw [ht, pow_succ]; ring
  have hS1 : (1 : ℝ) ≤ 2 ^ s := one_le_pow₀ (by norm_num)
  have hq2 : (2 : ℝ) ^ (q + 1) = 2 * 2 ^ q := by rw [pow_succ]; ring
  have hsq : (2 : ℝ) ^ s ≤ 2 ^ q := pow_le_pow_right₀ (by norm_num) (by omega)
  have es : (2 : ℝ) ^ (e + (s : ℤ)) = 2 ^ s * E := by rw [two_add, two_nat, hE]; ring
  have hSE : 0 < (2 : ℝ) ^ s * E := by positivity
  by_cases hm0 : (m : ℝ) = 2 ^ q
  · have hmem : ((2 : ℝ) ^ s + 1) * x ∈ f.F := by
      refine F.of_mul (k := e + q) heq ⟨2 ^ s + 1, ?_⟩ ?_
      · rw [hm, hm0, two_add, two_nat, hE]; push_cast; ring
      · rw [abs_of_pos (by positivity), two_add, two_add, two_nat, two_nat, hm, hm0, hE]
        have : (2 : ℝ) ^ s + 1 ≤ 2 ^ f.p := by rw [hq, hq2]; linarith
        have h5 : 0 ≤ (2 : ℝ) ^ q * E := by positivity
        calc ((2 : ℝ) ^ s + 1) * (2 ^ q * E) ≤ 2 ^ f.p * (2 ^ q * E) := mul_le_mul_of_nonneg_right this h5
          _ = _ := by ring
    rw [hg.eq hmem, show ((2 : ℝ) ^ s + 1) * x - x = 2 ^ s * x by ring, hm, hm0, hq2]
    have : (0 : ℝ) < 2 ^ q * 2 ^ s * E := by positivity
    constructor
    · apply le_of_eq; ring
    · calc (2 : ℝ) ^ s * (2 ^ q * E) = 2 ^ q * 2 ^ s * E := by ring
        _ ≤ 2 * (2 ^ q * 2 ^ s * E) := by linarith
        _ = _ := by ring
  · have hm1 : (2 : ℝ) ^ q + 1 ≤ m := by
      have a1 : (2 ^ q : ℤ) ≤ m := by exact_mod_cast hmlow
      have a2 : (2 ^ q : ℤ) ≠ m := by
        intro h; apply hm0; rw [← h]; push_cast; rfl
      have : (2 ^ q : ℤ) + 1 ≤ m := by omega
      exact_mod_cast this
    have herr : |((2 : ℝ) ^ s + 1) * x - g| ≤ 2 ^ s * E := by
      by_cases hc : ((2 : ℝ) ^ s + 1) * x ≤ 2 ^ ((f.p : ℤ) + (e + s))
      · have h9 := hg.err' (k := e + s) mC (by rw [abs_of_pos (by positivity)]; exact hc)
        refine h9.trans ?_
        rw [← es]; exact two_mono (by omega)
      · have := hg.err' (k := e + s + 1) mC (by
          rw [abs_of_pos (by positivity), two_add, two_succ, es, two_nat, hm, hq]
          have h7 : ((2 : ℝ) ^ s + 1) * (m * E) ≤ (2 * 2 ^ s) * (2 ^ (q + 1) * E) := by
            refine mul_le_mul (by linarith) ?_ (by rw [← hm]; exact hxpos.le) (by positivity)
            exact mul_le_mul_of_nonneg_right (by linarith) hE0.le
          calc _ ≤ (2 * 2 ^ s) * (2 ^ (q + 1) * E) := h7
            _ = _ := by ring)
        rwa [show e + (s : ℤ) + 1 - 1 = e + s by ring, es] at this
    rw [_root_.abs_le] at herr
    have hCx : ((2 : ℝ) ^ s + 1) * x = 2 ^ s * E * m + x := by rw [hm]; ring
    rw [hCx] at herr
    have l1 : 2 ^ s * E * (2 ^ q + 1) ≤ 2 ^ s * E * m := mul_le_mul_of_nonneg_left hm1 hSE.le
    have l2 : 2 ^ s * E * (m + 1) ≤ 2 ^ s * E * 2 ^ (q + 1) := mul_le_mul_of_nonneg_left hmhigh hSE.le
    rw [mul_add, mul_one] at l1 l2
    have e1 : (2 : ℝ) ^ q * 2 ^ s * E = 2 ^ s * E * 2 ^ q := by ring
    have e2 : (2 : ℝ) ^ (q + 1) * 2 ^ s * E = 2 ^ s * E * 2 ^ (q + 1) := by ring
    rw [e1, e2]
    constructor <;> linarith [herr.1, herr.2]

/-- Veltkamp: the splitting with the constant `2^s+1`.  With `e` the exponent of the number, the first part is a multiple of `2^(e+s)`
not larger than `2^(p+e)`, the second is the exact rest, not larger than `2^(s-1+e)`. -/
theorem veltkamp {x : ℝ} {s : ℕ} (h2 : 2 ≤ s) (hs : s + 2 ≤ f.p) (hx : x ∈ f.F) {e : ℤ} (h1 : (2 : ℝ) ^ ((f.p : ℤ) - 1 + e) ≤ |x|) (hx2 : |x| < 2 ^ ((f.p : ℤ) + e))
    {g d xh xl : ℝ} (hg : f.IsRN (((2 : ℝ) ^ s + 1) * x) g) (hd : f.IsRN (g - x) d) (hh : f.IsRN (g - d) xh) (hl : f.IsRN (x - xh) xl) :
    Mul (e + s) xh ∧ |xh| ≤ 2 ^ ((f.p : ℤ) + e) ∧ xh + xl = x ∧ |xl| ≤ 2 ^ ((s : ℤ) - 1 + e) ∧ Mul e xl := by
  -- positive numbers are enough
  suffices H : ∀ {x g d xh xl : ℝ}, x ∈ f.F → (2 : ℝ) ^ ((f.p : ℤ) - 1 + e) ≤ x → x < 2 ^ ((f.p : ℤ) + e) → f.IsRN (((2 : ℝ) ^ s + 1) * x) g → f.IsRN (g - x) d →
      f.IsRN (g - d) xh → f.IsRN (x - xh) xl → Mul (e + s) xh ∧ |xh| ≤ 2 ^ ((f.p : ℤ) + e) ∧ xh + xl = x ∧ |xl| ≤ 2 ^ ((s : ℤ) - 1 + e) ∧ Mul e xl by
    rcases abs_choice x with hc | hc <;> rw [hc] at h1 hx2
    · exact H hx h1 hx2 hg hd hh hl
    · have := H (x := -x) (g := -g) (d := -d) (xh := -xh) (xl := -xl) (F.neg hx) h1 hx2 (by rw [mul_neg]; exact hg.neg)
        (by rw [show -g - -x = -(g - x) by ring]; exact hd.neg) (by rw [show -g - -d = -(g - d) by ring]; exact hh.neg)
        (by rw [show -x - -xh = -(x - xh) by ring]; exact hl.neg)
      obtain ⟨q1, q2, q3, q4, q5⟩ := this
      refine ⟨by simpa using q1.neg, by simpa using q2, by linarith, by simpa using q4, by simpa using q5.neg⟩
  clear hx h1 hx2 hg hd hh hl
  intro x g d xh xl hx h1 hx2 hg hd hh hl
  have hxpos : 0 < x := lt_of_lt_of_le (two_pos _) h1
  have mx : Mul e x := F.mul_of_ge hx (by rwa [abs_of_pos hxpos])
  have mmin := F.mulMin hx
  -- sizes in units of 2^e
  set E : ℝ := (2 : ℝ) ^ e with hE
  have hE0 : 0 < E := two_pos e
  have es : (2 : ℝ) ^ (e + (s : ℤ)) = 2 ^ s * E := by rw [two_add, two_nat]; ring
  have ep : (2 : ℝ) ^ ((f.p : ℤ) + e) = 2 ^ f.p * E := by rw [two_add, two_nat]
  obtain ⟨q, hq⟩ : ∃ q, f.p = q + 1 := ⟨f.p - 1, by omega⟩
  obtain ⟨t, ht⟩ : ∃ t, s = t + 1 := ⟨s - 1, by omega⟩
  have ep1 : (2 : ℝ) ^ ((f.p : ℤ) - 1 + e) = 2 ^ q * E := by
    rw [hq, two_add]; push_cast; rw [add_sub_cancel_right, two_nat]
  have et : (2 : ℝ) ^ ((s : ℤ) - 1 + e) = 2 ^ t * E := by
    rw [ht, two_add]; push_cast; rw [add_sub_cancel_right, two_nat]
  obtain ⟨m, hm⟩ := mx
  rw [← hE] at hm
  have hmlow : (2 : ℝ) ^ q ≤ m := by
    rw [ep1, hm] at h1; exact le_of_mul_le_mul_right h1 hE0
  have hmhigh : (m : ℝ) + 1 ≤ 2 ^ (q + 1) := by
    rw [ep, hm, hq] at hx2
    have := lt_of_mul_lt_mul_right hx2 hE0.le
    have : m < 2 ^ (q + 1) := by exact_mod_cast this
    have : m + 1 ≤ 2 ^ (q + 1) := by omega
    exact_mod_cast this
  have hS : (2 : ℝ) ^ s = 2 * 2 ^ t := by rw [ht, pow_succ]; ring
  have ht1 : (2 : ℝ) ≤ 2 ^ t := by
    calc (2 : ℝ) = 2 ^ 1 := by norm_num
      _ ≤ 2 ^ t := pow_le_pow_right₀ (by norm_num) (by omega)
  have hst : (2 : ℝ) ^ s ≤ 2 ^ q / 2 := by
    have : (2 : ℝ) ^ (s + 1) ≤ 2 ^ q := pow_le_pow_right₀ (by norm_num) (by omega)
    rw [pow_succ] at this; linarith
  have hq2 : (2 : ℝ) ^ (q + 1) = 2 * 2 ^ q := by rw [pow_succ]; ring
  have mC : Mul f.emin (((2 : ℝ) ^ s + 1) * x) := by
    obtain ⟨n, hn⟩ := mmin
    exact ⟨(2 ^ s + 1) * n, by rw [hn]; push_cast; ring⟩
  have heq : f.emin ≤ e + q := by
    obtain ⟨n, hn⟩ := mmin
    have h3 : (2 : ℝ) ^ f.emin ≤ x := by
      have hp := two_pos f.emin
      have : (0 : ℝ) < n := by
        by_contra hc
        push Not at hc
        nlinarith
      have : (1 : ℤ) ≤ n := by exact_mod_cast this
      have : (1 : ℝ) ≤ n := by exact_mod_cast this
      nlinarith
    have := two_lt.1 (lt_of_le_of_lt h3 hx2)
    omega
  have eqs : (2 : ℝ) ^ ((f.p : ℤ) - 1 + (e + s)) = 2 ^ q * 2 ^ s * E := by
    rw [hq]; push_cast
    rw [add_sub_cancel_right, two_add, es, two_nat]; ring
  have eps : (2 : ℝ) ^ ((f.p : ℤ) + (e + s)) = 2 ^ (q + 1) * 2 ^ s * E := by
    rw [two_add, es, hq, two_nat]; ring
  have err1 : (2 : ℝ) ^ (e + (s : ℤ) - 1) = 2 ^ t * E := by
    rw [show e + (s : ℤ) - 1 = (s : ℤ) - 1 + e by ring, et]
  -- the difference is at least 2^(p-1+s) and at most 2^(p+s)
  have hgx : 2 ^ q * 2 ^ s * E ≤ g - x ∧ g - x ≤ 2 ^ (q + 1) * 2 ^ s * E :=
    velt_gx (f := f) (e := e) hq ht (by omega) (by omega) heq mC hm hmlow hmhigh hg
  have mg : Mul (e + s) g := F.mul_of_ge hg.1 (by
    rw [eqs]; exact le_trans (by linarith [hgx.1]) (le_abs_self g))
  have mminD : Mul f.emin (g - x) := (F.mulMin hg.1).sub mmin
  have hgx0 : 0 < g - x := lt_of_lt_of_le (by positivity) hgx.1
  have errd := hd.err' (k := e + s) mminD (by rw [abs_of_pos hgx0, eps]; exact hgx.2)
  rw [err1] at errd
  have md : Mul (e + s) d := F.mul_of_ge hd.1 (by
    refine hd.abs_ge (F.pow (by omega)) ?_
    rw [eqs, abs_of_pos hgx0]; exact hgx.1)
  have hgd : |g - d - x| ≤ 2 ^ t * E := by rw [show g - d - x = g - x - d by ring]; exact errd
  have hgd2 := _root_.abs_le.1 hgd
  have hcut : |g - d| ≤ 2 ^ ((f.p : ℤ) + e) := by
    have c := (mg.sub md).cut (n := f.p - s) (by
      rw [Nat.cast_sub (by omega), show (f.p : ℤ) - s + (e + s) = f.p + e by ring, ep, es, hq, _root_.abs_lt]
      have h7 : 0 < (2 : ℝ) ^ t * E := by positivity
      have h8 : x + E ≤ 2 ^ (q + 1) * E := by rw [hm]; nlinarith
      rw [hS]
      constructor <;> nlinarith)
    rwa [Nat.cast_sub (by omega), show (f.p : ℤ) - s + (e + s) = f.p + e by ring] at c
  have memh : g - d ∈ f.F := by
    rcases le_total f.emin (e + s) with hk | hk
    · exact F.of_mul hk (mg.sub md) (hcut.trans (two_mono (by omega)))
    · exact F.of_mul le_rfl ((F.mulMin hg.1).sub (F.mulMin hd.1)) (hcut.trans (two_mono (by omega)))
  have exh := hh.eq memh
  subst exh
  have ml : Mul e (x - (g - d)) := Mul.sub ⟨m, hm⟩ ((mg.sub md).mono (by omega))
  have hxl : |x - (g - d)| ≤ 2 ^ ((s : ℤ) - 1 + e) := by rw [et, abs_sub_comm]; exact hgd
  have meml : x - (g - d) ∈ f.F := by
    rcases le_total f.emin e with hk | hk
    · exact F.of_mul hk ml (hxl.trans (two_mono (by omega)))
    · exact F.of_mul le_rfl (mmin.sub (F.mulMin memh)) (hxl.trans (two_mono (by omega)))
  have exl := hl.eq meml
  subst exl
  exact ⟨mg.sub md, hcut, by ring, hxl, ml⟩

/-- Dekker: the product of the two halves, in the order used.  The digits are 53 and the splitting is at 27: what is needed is that twice
the position of the splitting is between the digits and two more. -/
theorem dekker_prod {x y r : ℝ} {s : ℕ} (h2 : 2 ≤ s) (hs1 : f.p ≤ 2 * s) (hs2 : 2 * s ≤ f.p + 2) (hs3 : s + 2 ≤ f.p) {ex ey : ℤ} (hk : f.emin ≤ ex + ey)
    (hx : Mul ex x) (hy : Mul ey y) (hx1 : (2 : ℝ) ^ ((f.p : ℤ) - 1 + ex) ≤ |x|) (hy1 : (2 : ℝ) ^ ((f.p : ℤ) - 1 + ey) ≤ |y|)
    (hx2 : |x| ≤ 2 ^ ((f.p : ℤ) + ex)) (hy2 : |y| ≤ 2 ^ ((f.p : ℤ) + ey)) (hr : f.IsRN (x * y) r) {xh xl yh yl : ℝ}
    (vx : Mul (ex + s) xh ∧ |xh| ≤ 2 ^ ((f.p : ℤ) + ex) ∧ xh + xl = x ∧ |xl| ≤ 2 ^ ((s : ℤ) - 1 + ex) ∧ Mul ex xl)
    (vy : Mul (ey + s) yh ∧ |yh| ≤ 2 ^ ((f.p : ℤ) + ey) ∧ yh + yl = y ∧ |yl| ≤ 2 ^ ((s : ℤ) - 1 + ey) ∧ Mul ey yl) :
    xl * yl ∈ f.F ∧ xl * yh ∈ f.F ∧ xh * yl ∈ f.F ∧ xh * yh ∈ f.F ∧ xh * yh - r ∈ f.F ∧ xh * yl + (xh * yh - r) ∈ f.F ∧
      xl * yh + (xh * yl + (xh * yh - r)) ∈ f.F ∧ x * y - r ∈ f.F := by
  obtain ⟨x1, x2, x3, x4, x5⟩ := vx
  obtain ⟨y1, y2, y3, y4, y5⟩ := vy
  set E : ℝ := (2 : ℝ) ^ (ex + ey) with hE
  have hE0 : 0 < E := two_pos _
  have prod : ∀ {a b : ℝ} {i j : ℤ}, |a| ≤ 2 ^ i → |b| ≤ 2 ^ j → |a * b| ≤ 2 ^ (i + j) := by
    intro a b i j ha hb
    rw [abs_mul, two_add]
    exact mul_le_mul ha hb (abs_nonneg _) (two_pos _).le
  have memM : ∀ {a : ℝ} {i : ℤ}, 0 ≤ i → Mul (ex + ey + i) a → |a| ≤ 2 ^ ((f.p : ℤ) + (ex + ey + i)) → a ∈ f.F := fun hi h1 h2 => F.of_mul (by omega) h1 h2
  have mll : Mul (ex + ey + 0) (xl * yl) := by rw [add_zero]; exact x5.mul y5
  have mlh : Mul (ex + ey + s) (xl * yh) := by rw [add_assoc]; exact x5.mul y1
  have mhl : Mul (ex + ey + s) (xh * yl) := by rw [show ex + ey + (s : ℤ) = ex + s + ey by ring]; exact x1.mul y5
  have mhh : Mul (ex + ey + (2 * s : ℕ)) (xh * yh) := by
    rw [show ex + ey + ((2 * s : ℕ) : ℤ) = ex + s + (ey + s) by push_cast; ring]; exact x1.mul y1
  have bll := prod x4 y4
  have blh := prod x4 y2
  have bhl := prod x2 y4
  have bhh := prod x2 y2
  -- the rounded product
  have hxy : |x * y| ≤ 2 ^ ((f.p : ℤ) + (ex + ey + f.p)) := by
    rw [show (f.p : ℤ) + (ex + ey + f.p) = f.p + ex + (f.p + ey) by ring]; exact prod hx2 hy2
  have herr := hr.err (k := ex + ey + f.p) (by omega) hxy
  have hxylow : (2 : ℝ) ^ ((f.p : ℤ) - 1 + (ex + ey + (f.p - 1))) ≤ |x * y| := by
    rw [abs_mul, show (f.p : ℤ) - 1 + (ex + ey + (f.p - 1)) = (f.p : ℤ) - 1 + ex + ((f.p : ℤ) - 1 + ey) by ring, two_add]
    exact mul_le_mul hx1 hy1 (two_pos _).le (abs_nonneg _)
  have h6 := f.six
  have mr : Mul (ex + ey + (f.p - 1)) r := F.mul_of_ge hr.1 (hr.abs_ge (F.pow (by omega)) hxylow)
  -- the sums
  have two4 : ∀ {a b : ℝ} {i j k : ℤ}, |a| ≤ 2 ^ i → |b| ≤ 2 ^ j → i + 1 ≤ k → j + 1 ≤ k → |a| + |b| ≤ 2 ^ k := by
    intro a b i j k ha hb hi hj
    have t1 := two_mono hi
    have t2 := two_mono hj
    rw [two_succ] at t1 t2
    linarith
  have s1 : xh * yh - r = -(x * yl + xl * yh) + (x * y - r) := by rw [← x3, ← y3]; ring
  have b1 : |xh * yh - r| ≤ 2 ^ ((f.p : ℤ) + s + 1 + (ex + ey)) := by
    rw [s1]
    have t1 := prod hx2 y4
    have t2 : |x * yl| + |xl * yh| ≤ 2 ^ ((f.p : ℤ) + s + (ex + ey)) := two4 t1 blh (by omega) (by omega)
    have t3 : |-(x * yl + xl * yh)| ≤ 2 ^ ((f.p : ℤ) + s + (ex + ey)) := by rw [abs_neg]; exact (abs_add_le _ _).trans t2
    exact (abs_add_le _ _).trans (two4 t3 herr (by omega) (by omega))
  have e1 : xh * yh - r ∈ f.F := memM (i := f.p - 1) (by omega) ((mhh.mono (by omega)).sub mr) (b1.trans (two_mono (by omega)))
  have s2 : xh * yl + (xh * yh - r) = -(xl * y) + (x * y - r) := by rw [← x3, ← y3]; ring
  have b2 : |xh * yl + (xh * yh - r)| ≤ 2 ^ ((f.p : ℤ) + (ex + ey + s)) := by
    rw [s2]
    have t1 : |-(xl * y)| ≤ 2 ^ ((s : ℤ) - 1 + ex + (f.p + ey)) := by rw [abs_neg]; exact prod x4 hy2
    exact (abs_add_le _ _).trans (two4 t1 herr (by omega) (by omega))
  have m2 : Mul (ex + ey + s) (xh * yl + (xh * yh - r)) := mhl.add ((mhh.mono (by omega)).sub (mr.mono (by omega)))
  have e2 := memM (by omega) m2 b2
  have s3 : xl * yh + (xh * yl + (xh * yh - r)) = -(xl * yl) + (x * y - r) := by rw [← x3, ← y3]; ring
  have b3 : |xl * yh + (xh * yl + (xh * yh - r))| ≤ 2 ^ ((f.p : ℤ) + (ex + ey + s)) := by
    rw [s3]
    have t1 : |-(xl * yl)| ≤ 2 ^ ((s : ℤ) - 1 + ex + ((s : ℤ) - 1 + ey)) := by rw [abs_neg]; exact bll
    exact (abs_add_le _ _).trans (two4 t1 herr (by omega) (by omega))
  have e3 := memM (by omega) (mlh.add m2) b3
  have e4 : x * y - r ∈ f.F := memM (i := 0) le_rfl (by
    rw [add_zero]; exact (hx.mul hy).sub (mr.mono (by omega))) (herr.trans (two_mono (by omega)))
  exact ⟨memM le_rfl mll (bll.trans (two_mono (by omega))), memM (by omega) mlh (blh.trans (two_mono (by omega))), memM (by omega) mhl (bhl.trans (two_mono (by omega))),
    memM (by omega) mhh (bhh.trans (two_mono (by push_cast; omega))), e1, e2, e3, e4⟩

/-- a product does not underflow: it is zero, or its error is a number of the format -/
def NoUnderflow (f : Fmt) (x y : ℝ) : Prop := x * y = 0 ∨ (2 : ℝ) ^ (2 * (f.p : ℤ) + f.emin) ≤ |x * y|

theorem rnd_zero : R.rnd 0 = 0 := rnd_eq R F.zero

/-- the exact products of the halves, as computed -/
theorem prod_exact (R : Rounding binary64) {a b : ℝ} (ha : a ∈ binary64.F) (hb : b ∈ binary64.F) (h : NoUnderflow binary64 a b) :
    let A := split R a
    let B := split R b
    let c := R.mul a b
    a * b - c ∈ binary64.F ∧ R.add (R.mul A.2 B.2) (R.add (R.mul A.2 B.1) (R.add (R.mul A.1 B.2) (R.sub (R.mul A.1 B.1) c))) = a * b - c ∧
      R.add (R.add (R.add (R.sub (R.mul A.1 B.1) c) (R.mul A.1 B.2)) (R.mul A.2 B.1)) (R.mul A.2 B.2) = a * b - c := by
  rcases h with h | h
  · have hc : R.mul a b = 0 := by unfold Rounding.mul; rw [h, rnd_zero]
    simp only [hc, h, sub_zero]
    refine ⟨F.zero, ?_⟩
    rcases mul_eq_zero.1 h with h0 | h0
    · have s0 : split R a = (0, 0) := by
        unfold split; simp [h0, Rounding.mul, Rounding.sub, rnd_zero]
      rw [s0]; simp [Rounding.mul, Rounding.sub, Rounding.add, rnd_zero]
    · have s0 : split R b = (0, 0) := by
        unfold split; simp [h0, Rounding.mul, Rounding.sub, rnd_zero]
      rw [s0]; simp [Rounding.mul, Rounding.sub, Rounding.add, rnd_zero]
  · have hne : a * b ≠ 0 := by
      intro h0; rw [h0, abs_zero] at h; exact absurd h (not_le.2 (two_pos _))
    obtain ⟨ex, x1, x2⟩ := exp_exists (left_ne_zero_of_mul hne) binary64.p
    obtain ⟨ey, y1, y2⟩ := exp_exists (right_ne_zero_of_mul hne) binary64.p
    have hk : binary64.emin ≤ ex + ey := by
      have : |a * b| < 2 ^ ((binary64.p : ℤ) + ex + (binary64.p + ey)) := by
        rw [abs_mul, two_add]
        exact mul_lt_mul'' x2 y2 (abs_nonneg _) (abs_nonneg _)
      have := two_lt.1 (lt_of_le_of_lt h this)
      omega
    have hsp : splitConst = (2 : ℝ) ^ 27 + 1 := by unfold splitConst; norm_num
    have hp : binary64.p = 53 := rfl
    have vx := veltkamp (f := binary64) (s := 27) (by norm_num) (by rw [hp]; norm_num) ha x1 x2 (R.nearest _) (R.nearest _) (R.nearest _) (R.nearest _)
    have vy := veltkamp (f := binary64) (s := 27) (by norm_num) (by rw [hp]; norm_num) hb y1 y2 (R.nearest _) (R.nearest _) (R.nearest _) (R.nearest _)
    have sA : ∀ x, split R x = (R.rnd (R.rnd (((2 : ℝ) ^ 27 + 1) * x) - R.rnd (R.rnd (((2 : ℝ) ^ 27 + 1) * x) - x)),
        R.rnd (x - R.rnd (R.rnd (((2 : ℝ) ^ 27 + 1) * x) - R.rnd (R.rnd (((2 : ℝ) ^ 27 + 1) * x) - x)))) := by
      intro x; unfold split Rounding.mul Rounding.sub; rw [hsp]
    rw [sA a, sA b]
    simp only
    generalize R.rnd (R.rnd (((2 : ℝ) ^ 27 + 1) * a) - R.rnd (R.rnd (((2 : ℝ) ^ 27 + 1) * a) - a)) = xh at vx ⊢
    generalize R.rnd (R.rnd (((2 : ℝ) ^ 27 + 1) * b) - R.rnd (R.rnd (((2 : ℝ) ^ 27 + 1) * b) - b)) = yh at vy ⊢
    generalize R.rnd (a - xh) = xl at vx ⊢
    generalize R.rnd (b - yh) = yl at vy ⊢
    have mx : Mul ex a := F.mul_of_ge ha x1
    have my : Mul ey b := F.mul_of_ge hb y1
    obtain ⟨e1, e2, e3, e4, e5, e6, e7, e8⟩ := dekker_prod (f := binary64) (s := 27) (by norm_num) (by rw [hp]; norm_num) (by rw [hp]; norm_num) (by rw [hp]; norm_num) hk mx my x1 y1 x2.le y2.le
      (R.nearest (a * b)) vx vy
    have r : a * b - R.rnd (a * b) = xl * yl + (xl * yh + (xh * yl + (xh * yh - R.rnd (a * b)))) := by
      obtain ⟨-, -, x3, -⟩ := vx
      obtain ⟨-, -, y3, -⟩ := vy
      have : a * b = xl * yl + (xl * yh + (xh * yl + xh * yh)) := by
        calc a * b = (xh + xl) * (yh + yl) := by rw [x3, y3]
          _ = _ := by ring
      linarith
    refine ⟨e8, ?_, ?_⟩ <;> unfold Rounding.mul Rounding.add Rounding.sub
    · rw [rnd_eq R e1, rnd_eq R e2, rnd_eq R e3, rnd_eq R e4, rnd_eq R e5, rnd_eq R e6, rnd_eq R e7, ← r, rnd_eq R e8]
    · rw [rnd_eq R e1, rnd_eq R e2, rnd_eq R e3, rnd_eq R e4, rnd_eq R e5, add_comm (xh * yh - _) (xh * yl), rnd_eq R e6, add_comm (xh * yl + _) (xl * yh), rnd_eq R e7,
        add_comm _ (xl * yl), ← r, rnd_eq R e8]

/-- C61: `two_prod` gives the rounded product and its exact error, for any two `double` whose product does not underflow. -/
theorem C61_two_prod (R : Rounding binary64) {a b : ℝ} (ha : a ∈ binary64.F) (hb : b ∈ binary64.F) (h : NoUnderflow binary64 a b) :
    binary64.IsRN (a * b) (two_prod R a b).1 ∧ (two_prod R a b).1 + (two_prod R a b).2 = a * b ∧ (two_prod R a b).2 ∈ binary64.F := by
  obtain ⟨h1, -, h3⟩ := prod_exact R ha hb h
  refine ⟨R.nearest _, ?_, rnd_mem R _⟩
  unfold two_prod
  simp only
  rw [h3]; ring

/-- C61: the same for `Float128::prod`. -/
theorem C61_prod_of_doubles (R : Rounding binary64) {a b : ℝ} (ha : a ∈ binary64.F) (hb : b ∈ binary64.F) (h : NoUnderflow binary64 a b) :
    (DD.prod2 R a b).val = a * b ∧ binary64.IsRN (a * b) (DD.prod2 R a b).hi ∧ (DD.prod2 R a b).lo ∈ binary64.F := by
  obtain ⟨h1, h2, -⟩ := prod_exact R ha hb h
  have hc : ∀ x, R.mul x splitConst = R.mul splitConst x := by intro x; unfold Rounding.mul; rw [mul_comm]
  unfold split at h2
  unfold DD.prod2 DD.val
  simp only [hc] at h2 ⊢
  simp only [h2]
  have hn := R.nearest (a * b)
  unfold Rounding.mul Rounding.add Rounding.sub at *
  rw [show R.rnd (a * b) + (a * b - R.rnd (a * b)) = a * b by ring, sub_self, rnd_zero, sub_zero, rnd_eq R h1]
  exact ⟨by ring, hn, h1⟩

/-- C61: `three_summ` changes three numbers into three with the same exact sum, the first being the rounded sum of the largest part. -/
theorem C61_three_summ {x y z : ℝ} (hx : x ∈ f.F) (hy : y ∈ f.F) (hz : z ∈ f.F) :
    (three_summ R x y z).1 + (three_summ R x y z).2.1 + (three_summ R x y z).2.2 = x + y + z ∧
      (three_summ R x y z).1 = R.rnd (z + R.rnd (x + y)) ∧ (three_summ R x y z).2.1 = R.rnd ((three_summ R x y z).2.1 + (three_summ R x y z).2.2) := by
  obtain ⟨-, t1, t2⟩ := C61_two_summ R hx hy
  obtain ⟨-, p1, p2⟩ := C61_two_summ R hz (rnd_mem R (x + y))
  obtain ⟨-, q1, -⟩ := C61_two_summ R t2 p2
  unfold three_summ
  simp only
  have e : (two_summ R x y).1 = R.rnd (x + y) := rfl
  rw [e] at t1 ⊢
  refine ⟨by linarith, rfl, ?_⟩
  rw [q1]; rfl

/-- C61: `three_summ2` does the same up to the rounding of the second number. -/
theorem C61_three_summ2 {x y c : ℝ} (hx : x ∈ f.F) (hy : y ∈ f.F) (hc : c ∈ f.F) :
    ∃ d : ℝ, (three_summ2 R x y c).1 + d = x + y + c ∧ (three_summ2 R x y c).2 = R.rnd d ∧ |d| ≤ f.u * (|x + y| + |c + R.rnd (x + y)|) := by
  obtain ⟨-, t1, t2⟩ := C61_two_summ R hx hy
  obtain ⟨-, p1, p2⟩ := C61_two_summ R hc (rnd_mem R (x + y))
  refine ⟨(two_summ R x y).2 + (two_summ R c (R.rnd (x + y))).2, ?_, rfl, ?_⟩
  · have e : (two_summ R x y).1 = R.rnd (x + y) := rfl
    have e2 : (three_summ2 R x y c).1 = (two_summ R c (R.rnd (x + y))).1 := rfl
    rw [e2]; rw [e] at t1
    linarith
  · have r1 := (R.nearest (x + y)).rel ((F.mulMin hx).add (F.mulMin hy))
    have r2 := (R.nearest (c + R.rnd (x + y))).rel ((F.mulMin hc).add (F.mulMin (rnd_mem R (x + y))))
    have e1 : (two_summ R x y).2 = x + y - R.rnd (x + y) := by
      have e : (two_summ R x y).1 = R.rnd (x + y) := rfl
      rw [e] at t1; linarith
    have e2 : (two_summ R c (R.rnd (x + y))).2 = c + R.rnd (x + y) - R.rnd (c + R.rnd (x + y)) := by
      have e : (two_summ R c (R.rnd (x + y))).1 = R.rnd (c + R.rnd (x + y)) := rfl
      rw [e] at p1; linarith
    rw [e1, e2]
    exact (abs_add_le _ _).trans (by linarith)

/-- C61: nothing is lost when a number is accumulated: the number given out and the two accumulators have the exact sum; and a number is given out only
if both accumulators are still in use. -/
theorem C61_three_accum {a b c : ℝ} (ha : a ∈ f.F) (hb : b ∈ f.F) (hc : c ∈ f.F) :
    (quick_three_accum R a b c).1 + (quick_three_accum R a b c).2.1 + (quick_three_accum R a b c).2.2 = a + b + c ∧
      ((quick_three_accum R a b c).1 ≠ 0 → (quick_three_accum R a b c).2.1 ≠ 0 ∧ (quick_three_accum R a b c).2.2 ≠ 0) := by
  obtain ⟨-, p1, -⟩ := C61_two_summ R hb hc
  obtain ⟨-, q1, -⟩ := C61_two_summ R ha (rnd_mem R (b + c))
  have e : (two_summ R b c).1 = R.rnd (b + c) := rfl
  unfold quick_three_accum
  simp only
  rw [e] at p1 ⊢
  split
  · rename_i h
    exact ⟨by simp only; linarith, fun _ => h⟩
  · rename_i h
    split
    · rename_i h2
      push Not at h2
      refine ⟨?_, fun h3 => absurd rfl h3⟩
      simp only; linarith
    · rename_i h2
      push Not at h h2
      have h3 : (two_summ R a (R.rnd (b + c))).2 = 0 := by
        by_contra hc
        exact h2 (h hc)
      refine ⟨?_, fun h3 => absurd rfl h3⟩
      simp only; linarith

/-- C61: adding a `double` to a number of four parts, nothing is lost before the renormalisation. -/
theorem C61_summ_double_parts {a : Fin 4 → ℝ} {b : ℝ} (ha : ∀ i, a i ∈ f.F) (hb : b ∈ f.F) : ∑ i, summ_double_parts R a b i = ∑ i, a i + b := by
  obtain ⟨-, p0, m0⟩ := C61_two_summ R (ha 0) hb
  obtain ⟨-, p1, m1⟩ := C61_two_summ R (ha 1) m0
  obtain ⟨-, p2, m2⟩ := C61_two_summ R (ha 2) m1
  obtain ⟨-, p3, m3⟩ := C61_two_summ R (ha 3) m2
  unfold summ_double_parts
  simp only [Fin.sum_univ_five, Fin.sum_univ_four]
  simp only [Matrix.cons_val]
  linarith

end

end Nissa.Flt
