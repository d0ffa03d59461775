import Verif.Floats.PropsSum
import Verif.Floats.Reduce
import Mathlib.Data.Nat.Log
import Mathlib.Algebra.Order.BigOperators.Group.Finset

/-! # C61: conversion to `double`, reductions, check at startup -/

set_option linter.all false

namespace Nissa.Flt

noncomputable section

variable {f : Fmt} (R : Rounding f)

/-! ### the next number -/

/-- the least number of the format above a number of the format, at most one unit away -/
theorem next_up {x : ℝ} (hx : x ∈ f.F) : ∃ z, IsLeast {t | t ∈ f.F ∧ x < t} z := by
  obtain ⟨k, k1, k2, k3, k4⟩ := F.canon hx
  have hp := two_pos k
  have hm := two_pos f.emin
  have hg := k2.gap k3
  have hmem : x + 2 ^ k ∈ f.F := F.of_mul k1 (k2.add (Mul.pow k)) ((abs_add_le _ _).trans (by rw [abs_of_pos hp]; linarith))
  obtain ⟨m0, h0⟩ := F.mulMin hmem
  obtain ⟨mx, hxm⟩ := F.mulMin hx
  have key := Int.exists_least_of_bdd (P := fun m : ℤ => (m : ℝ) * 2 ^ f.emin ∈ f.F ∧ x < m * 2 ^ f.emin) ⟨mx, fun m hm' => by
      have h1 := hm'.2
      rw [hxm] at h1
      have := lt_of_mul_lt_mul_right h1 hm.le
      have : mx < m := by exact_mod_cast this
      omega⟩ ⟨m0, by rw [← h0]; exact ⟨hmem, by linarith⟩⟩
  obtain ⟨m, h1, h2⟩ := key
  refine ⟨m * 2 ^ f.emin, h1, fun t ht => ?_⟩
  obtain ⟨mt, e⟩ := F.mulMin ht.1
  have := h2 mt (by rw [← e]; exact ht)
  rw [e]
  exact mul_le_mul_of_nonneg_right (by exact_mod_cast this) hm.le

theorem next_dw {x : ℝ} (hx : x ∈ f.F) : ∃ z, IsGreatest {t | t ∈ f.F ∧ t < x} z := by
  obtain ⟨z, h1, h2⟩ := next_up (F.neg hx)
  refine ⟨-z, ⟨F.neg h1.1, by linarith [h1.2]⟩, fun t ht => ?_⟩
  have : z ≤ -t := h2 ⟨F.neg ht.1, by linarith [ht.2]⟩
  linarith

/-- the library function always has a result -/
theorem nextAfter_exists {x : ℝ} (hx : x ∈ f.F) (y : ℝ) : ∃ z, IsNextAfter f x y z := by
  rcases lt_trichotomy x y with h | h | h
  · obtain ⟨z, hz⟩ := next_up hx
    exact ⟨z, .inr (.inl ⟨h, hz⟩)⟩
  · exact ⟨y, .inl ⟨h, rfl⟩⟩
  · obtain ⟨z, hz⟩ := next_dw hx
    exact ⟨z, .inr (.inr ⟨h, hz⟩)⟩

theorem roundDown_exists (tiny : ℝ) {a : DD} (h : a.Weak f) : ∃ z, IsRoundDown f tiny a z := by
  unfold IsRoundDown
  split
  · exact ⟨_, rfl⟩
  · exact nextAfter_exists h.2.1 _

/-- C61: the conversion of a positive number to `double` gives the largest `double` not above the number meant. -/
theorem C61_round_down {tiny : ℝ} (ht : 0 < tiny) {a : DD} (h : a.Weak f) (hpos : 0 < a.hi) {z : ℝ} (hz : IsRoundDown f tiny a z) :
    IsGreatest {t | t ∈ f.F ∧ t ≤ a.val} z := by
  have hv : a.val = a.hi + a.lo := rfl
  unfold IsRoundDown at hz
  split at hz
  · rename_i hlo
    subst hz
    refine ⟨⟨h.2.1, by rw [hv]; linarith⟩, fun t ht' => ?_⟩
    by_contra hc
    push Not at hc
    have := h.2.2 t ht'.1
    have h2 := ht'.2
    rw [hv] at h2
    rw [add_sub_cancel_left, abs_of_nonneg hlo, abs_of_nonneg (by linarith)] at this
    linarith
  · rename_i hlo
    push Not at hlo
    rcases hz with ⟨h1, h2⟩ | ⟨h1, h2⟩ | ⟨h1, h2⟩
    · linarith
    · linarith
    · refine ⟨⟨h2.1.1, ?_⟩, fun t ht' => h2.2 ⟨ht'.1, by have := ht'.2; rw [hv] at this; linarith⟩⟩
      by_contra hc
      push Not at hc
      have n := h.2.2 z h2.1.1
      have l := h2.1.2
      rw [hv] at hc
      rw [add_sub_cancel_left, abs_of_neg hlo, abs_of_neg (by linarith)] at n
      linarith

/-- C61: the conversion of any number to `double` is right up to four times the precision. -/
theorem C61_round_accuracy {tiny : ℝ} {a : DD} (h : a.Weak f) {z : ℝ} (hz : IsRoundDown f tiny a z) : |z - a.val| ≤ 4 * f.u * |a.val| ∧ z ∈ f.F := by
  have hu := u_small (f := f)
  have hu0 := u_pos (f := f)
  have hv : a.val = a.hi + a.lo := rfl
  obtain ⟨v1, v2⟩ := h.val_le
  have v0 := abs_nonneg a.val
  unfold IsRoundDown at hz
  split at hz
  · subst hz
    refine ⟨?_, h.2.1⟩
    rw [show a.hi - a.val = -a.lo by rw [hv]; ring, abs_neg]
    nlinarith
  · rename_i hlo
    push Not at hlo
    obtain ⟨k, k1, k2, k3, k4, k5⟩ := h.unit
    have hp := two_pos k
    -- the smallest numbers have no second part
    have hn : (2 : ℝ) ^ ((f.p : ℤ) - 1 + k) ≤ |a.hi| := by
      rcases k4 with hk | hk
      · exfalso
        obtain ⟨m, hm⟩ := F.mulMin h.1
        have e := two_pred f.emin
        have e0 := two_pos (f.emin - 1)
        rw [hk, hm, abs_mul, abs_of_pos (two_pos f.emin), e] at k5
        have : |(m : ℝ)| < 1 := by
          by_contra hc
          push Not at hc
          nlinarith
        have : |m| < 1 := by exact_mod_cast this
        have : m = 0 := by rw [← Int.abs_lt_one_iff]; exact this
        rw [hm, this] at hlo; simp at hlo
      · exact hk
    have unit : (2 : ℝ) ^ k ≤ 2 * f.u * |a.hi| := by
      have : (2 : ℝ) ^ k = 2 * f.u * 2 ^ ((f.p : ℤ) - 1 + k) := by
        unfold Fmt.u
        rw [mul_assoc, ← two_add, ← two_succ]; congr 1; ring
      rw [this]
      exact mul_le_mul_of_nonneg_left hn (by linarith)
    have hg := k2.gap k3
    have near : |z - a.hi| ≤ 2 ^ k ∧ z ∈ f.F := by
      rcases hz with ⟨h1, h2⟩ | ⟨h1, h2⟩ | ⟨h1, h2⟩
      · rw [h2, ← h1, sub_self, abs_zero]; exact ⟨hp.le, h.2.1⟩
      · have mem : a.hi + 2 ^ k ∈ f.F := F.of_mul k1 (k2.add (Mul.pow k)) ((abs_add_le _ _).trans (by rw [abs_of_pos hp]; linarith))
        have := h2.2 ⟨mem, by linarith⟩
        have := h2.1.2
        rw [abs_of_nonneg (by linarith)]
        exact ⟨by linarith, h2.1.1⟩
      · have mem : a.hi - 2 ^ k ∈ f.F := F.of_mul k1 (k2.sub (Mul.pow k)) ((abs_sub _ _).trans (by rw [abs_of_pos hp]; linarith))
        have := h2.2 ⟨mem, by linarith⟩
        have := h2.1.2
        rw [abs_of_nonpos (by linarith)]
        exact ⟨by linarith, h2.1.1⟩
    refine ⟨?_, near.2⟩
    have t := abs_add_le (z - a.hi) (-a.lo)
    rw [abs_neg, show z - a.hi + -a.lo = z - a.val by rw [hv]; ring] at t
    have l1 := h.lo_le
    have l2 : f.u * |a.hi| ≤ f.u * ((1 + f.u) * |a.val|) := mul_le_mul_of_nonneg_left v2 hu0.le
    have l3 : f.u * ((1 + f.u) * |a.val|) ≤ f.u * ((1 + 1 / 64) * |a.val|) := mul_le_mul_of_nonneg_left (mul_le_mul_of_nonneg_right (by linarith) v0) hu0.le
    have l4 : 0 ≤ f.u * |a.val| := mul_nonneg hu0.le v0
    have := near.1
    linarith

/-- C61, violated: the conversion of a negative number whose second part is negative does not round down, and not even to one of the two numbers
around: it goes to the number above the first part, which is already above the number meant.  `std::nextafter` is called in the direction of `-1e-300`,
that is towards zero for the negative numbers. -/
theorem C61_violated_round_down {tiny : ℝ} {a : DD} (h : a.Weak f) (hneg : a.hi < -tiny) (hlo : a.lo < 0) {z : ℝ} (hz : IsRoundDown f tiny a z) :
    a.val < a.hi ∧ a.hi ∈ f.F ∧ a.hi < z ∧ z ∈ f.F := by
  unfold IsRoundDown at hz
  rw [if_neg (by linarith)] at hz
  rcases hz with ⟨h1, h2⟩ | ⟨h1, h2⟩ | ⟨h1, h2⟩
  · linarith
  · exact ⟨by unfold DD.val; linarith, h.2.1, h2.1.2, h2.1.1⟩
  · linarith

/-- the hypotheses are met: `-1-2^-60` -/
example : (⟨-1, -(2 : ℝ) ^ (-60 : ℤ)⟩ : DD).Weak binary64 := by
  have m60 : (2 : ℝ) ^ (-60 : ℤ) ∈ binary64.F := F.pow (by show (-1074 : ℤ) ≤ -60; norm_num)
  have m1 : (-1 : ℝ) ∈ binary64.F := by
    have := F.neg (F.pow (f := binary64) (k := 0) (by show (-1074 : ℤ) ≤ 0; norm_num))
    simpa using this
  refine ⟨F.neg m60, m1, fun y hy => ?_⟩
  simp only
  rw [add_sub_cancel_left, abs_neg, abs_of_pos (two_pos _)]
  by_contra hc
  push Not at hc
  -- near -1 the numbers are multiples of 2^-53
  have hc' := _root_.abs_lt.1 hc
  have e60 : (2 : ℝ) ^ (-60 : ℤ) ≤ 1 / 1000000 := by
    calc (2 : ℝ) ^ (-60 : ℤ) ≤ 2 ^ (-20 : ℤ) := two_mono (by norm_num)
      _ ≤ _ := by norm_num
  have hy1 : (2 : ℝ) ^ ((binary64.p : ℤ) - 1 + -53) ≤ |y| := by
    have : (2 : ℝ) ^ ((binary64.p : ℤ) - 1 + -53) = 1 / 2 := by
      show (2 : ℝ) ^ ((53 : ℕ) - 1 + -53 : ℤ) = 1 / 2
      norm_num
    rw [this]
    have : y < 0 := by linarith [hc'.1]
    rw [abs_of_neg this]; linarith [hc'.1]
  have my := F.mul_of_ge hy hy1
  have m1' : Mul (-53) (-1 : ℝ) := ⟨-2 ^ 53, by push_cast; norm_num⟩
  have hd := my.sub m1'
  have habs : |y - -1| < 2 ^ ((0 : ℕ) + -53 : ℤ) := by
    have : (2 : ℝ) ^ (-53 : ℤ) = 128 * 2 ^ (-60 : ℤ) := by
      rw [show (-53 : ℤ) = 7 + -60 by norm_num, two_add]; norm_num
    push_cast
    rw [this, _root_.abs_lt]
    constructor <;> linarith [hc'.1, hc'.2, two_pos (-60)]
  have := hd.gap habs
  push_cast at this
  rw [sub_self] at this
  have hy0 : y - -1 = 0 := abs_nonpos_iff.1 this
  rw [show y = -1 by linarith] at hc
  rw [show (-1 : ℝ) + -2 ^ (-60 : ℤ) - -1 = -2 ^ (-60 : ℤ) by ring, abs_neg, abs_of_pos (two_pos _)] at hc
  exact lt_irrefl _ hc

/-! ### reductions -/

/-- number of levels of the reduction of the sites of a rank -/
theorem tree_rel {M : Type} (op : M → M → M) (P : Nat → M → ℝ → ℝ → Prop) (mono : ∀ {d d' m x s}, d ≤ d' → P d m x s → P d' m x s)
    (step : ∀ {d a b x y s t}, P d a x s → P d b y t → P (d + 1) (op a b) (x + y) (s + t)) (n : Nat) (h0 : 0 < n) :
    ∀ (d : Nat) (F : Nat → M) (x s : Nat → ℝ), (∀ j, j < n → P d (F j) (x j) (s j)) →
      P (d + Nat.clog 2 n) (Reduce.tree op n F) (Reduce.tree (· + ·) n x) (Reduce.tree (· + ·) n s) := by
  induction n using Nat.strong_induction_on with
  | _ n ih =>
    intro d F x s h
    by_cases h1 : 1 < n
    · have hp : ∀ {N : Type} (o : N → N → N) (G : Nat → N), Reduce.tree o n G =
          Reduce.tree o ((n + 1) / 2) (fun j => if j < n / 2 then o (G j) (G (j + (n + 1) / 2)) else G j) := by
        intro N o G
        conv_lhs => rw [Reduce.tree]
        rw [dif_pos h1]
      rw [hp op, hp (· + ·) x, hp (· + ·) s, Nat.clog_of_two_le (by norm_num) (by omega)]
      have e : (n + 2 - 1) / 2 = (n + 1) / 2 := by congr 1
      rw [e, show d + (Nat.clog 2 ((n + 1) / 2) + 1) = d + 1 + Nat.clog 2 ((n + 1) / 2) by ring]
      refine ih ((n + 1) / 2) (by omega) (by omega) (d + 1) _ _ _ fun j hj => ?_
      by_cases hjn : j < n / 2
      · simp only [if_pos hjn]
        exact step (h j (by omega)) (h _ (by omega))
      · simp only [if_neg hjn]
        exact mono (by omega) (h j (by omega))
    · have hp : ∀ {N : Type} (o : N → N → N) (G : Nat → N), Reduce.tree o n G = G 0 := by
        intro N o G
        rw [Reduce.tree, dif_neg h1]
      rw [hp, hp, hp]
      exact mono (by omega) (h 0 h0)

theorem allRed_rel {M : Type} (op : M → M → M) (P : Nat → M → ℝ → ℝ → Prop) (mono : ∀ {d d' m x s}, d ≤ d' → P d m x s → P d' m x s)
    (step : ∀ {d a b x y s t}, P d a x s → P d b y t → P (d + 1) (op a b) (x + y) (s + t)) (v : Nat → M) (x s : Nat → ℝ) (d : Nat) :
    ∀ (l : List Nat) (c : M), AllRed op v l c → (∀ r ∈ l, P d (v r) (x r) (s r)) → 0 < l.length ∧ P (d + (l.length - 1)) c (l.map x).sum (l.map s).sum := by
  intro l c h
  induction h with
  | one r => intro h; simp; exact h r (by simp)
  | @node l1 l2 a b _ _ ih1 ih2 =>
    intro h
    obtain ⟨p1, q1⟩ := ih1 fun r hr => h r (by simp [hr])
    obtain ⟨p2, q2⟩ := ih2 fun r hr => h r (by simp [hr])
    refine ⟨by simp; omega, ?_⟩
    rw [List.map_append, List.map_append, List.sum_append, List.sum_append, List.length_append]
    exact mono (by omega) (step (d := d + (l1.length + l2.length - 2)) (mono (by omega) q1) (mono (by omega) q2))

/-- a value with its error: `d` levels of sums, each with relative error `c` -/
def Close {M : Type} (good : M → Prop) (val : M → ℝ) (c : ℝ) (d : Nat) (m : M) (x s : ℝ) : Prop :=
  good m ∧ |x| ≤ s ∧ |val m - x| ≤ ((1 + c) ^ d - 1) * s

theorem Close.mono {M : Type} {good : M → Prop} {val : M → ℝ} {c : ℝ} (hc : 0 ≤ c) {d d' : Nat} {m : M} {x s : ℝ} (hd : d ≤ d') (h : Close good val c d m x s) :
    Close good val c d' m x s := by
  refine ⟨h.1, h.2.1, h.2.2.trans (mul_le_mul_of_nonneg_right ?_ ((abs_nonneg _).trans h.2.1))⟩
  have := pow_le_pow_right₀ (show (1 : ℝ) ≤ 1 + c by linarith) hd
  linarith

theorem Close.step {M : Type} {good : M → Prop} {val : M → ℝ} {op : M → M → M} {c : ℝ} (hc : 0 ≤ c)
    (hop : ∀ a b, good a → good b → good (op a b) ∧ |val (op a b) - (val a + val b)| ≤ c * (|val a| + |val b|)) {d : Nat} {a b : M} {x y s t : ℝ}
    (ha : Close good val c d a x s) (hb : Close good val c d b y t) : Close good val c (d + 1) (op a b) (x + y) (s + t) := by
  obtain ⟨a1, a2, a3⟩ := ha
  obtain ⟨b1, b2, b3⟩ := hb
  obtain ⟨g, e⟩ := hop a b a1 b1
  refine ⟨g, (abs_add_le _ _).trans (by linarith), ?_⟩
  have va : |val a| ≤ (1 + c) ^ d * s := by
    have := abs_add_le (val a - x) x
    rw [sub_add_cancel] at this
    linarith
  have vb : |val b| ≤ (1 + c) ^ d * t := by
    have := abs_add_le (val b - y) y
    rw [sub_add_cancel] at this
    linarith
  have t1 : |val (op a b) - (x + y)| ≤ |val (op a b) - (val a + val b)| + (|val a - x| + |val b - y|) := by
    rw [show val (op a b) - (x + y) = val (op a b) - (val a + val b) + ((val a - x) + (val b - y)) by ring]
    exact (abs_add_le _ _).trans (add_le_add_right (abs_add_le _ _) _)
  have t2 : c * (|val a| + |val b|) ≤ c * ((1 + c) ^ d * (s + t)) := mul_le_mul_of_nonneg_left (by linarith) hc
  have e2 : ((1 + c) ^ (d + 1) - 1) * (s + t) = c * ((1 + c) ^ d * (s + t)) + (((1 + c) ^ d - 1) * s + ((1 + c) ^ d - 1) * t) := by rw [pow_succ]; ring
  rw [e2]
  linarith

/-- error of a reduction on all the ranks -/
theorem reduced_error {M : Type} (op : M → M → M) {good : M → Prop} {val : M → ℝ} {c : ℝ} (hc : 0 ≤ c)
    (hop : ∀ a b, good a → good b → good (op a b) ∧ |val (op a b) - (val a + val b)| ≤ c * (|val a| + |val b|)) (nranks n : Nat) (hn : 0 < n)
    (sched : Nat → Nat → List Nat) (hl : ∀ rk, Reduce.Legal (sched rk)) (field : Nat → Nat → M) (hg : ∀ rk i, good (field rk i)) (out : M)
    (h : IsReduced op nranks sched n field out) :
    good out ∧ |val out - ∑ rk ∈ Finset.range nranks, ∑ i ∈ Finset.range n, val (field rk i)| ≤
      ((1 + c) ^ (Nat.clog 2 n + (nranks - 1)) - 1) * ∑ rk ∈ Finset.range nranks, ∑ i ∈ Finset.range n, |val (field rk i)| := by
  obtain ⟨l, hperm, hall⟩ := h
  have mono : ∀ {d d' : Nat} {m : M} {x s : ℝ}, d ≤ d' → Close good val c d m x s → Close good val c d' m x s := fun hd h => h.mono hc hd
  have step : ∀ {d : Nat} {a b : M} {x y s t : ℝ}, Close good val c d a x s → Close good val c d b y t → Close good val c (d + 1) (op a b) (x + y) (s + t) :=
    fun h1 h2 => Close.step hc hop h1 h2
  have loc : ∀ rk, Close good val c (Nat.clog 2 n) (Reduce.reduceNoPreserve op (sched rk) n (field rk)) (∑ i ∈ Finset.range n, val (field rk i)) (∑ i ∈ Finset.range n, |val (field rk i)|) := by
    intro rk
    have a := Reduce.reduceLoop_tree op (hl rk) (nslices := 1) (nori := n) (by omega) n hn (Nat.le_refl _) (field rk) 0 (by omega)
    rw [Nat.mul_zero] at a
    unfold Reduce.reduceNoPreserve
    rw [a]
    have := tree_rel op (Close good val c) mono step n hn 0 (fun j => field rk (j + 0)) (fun j => val (field rk j)) (fun j => |val (field rk j)|)
      fun j _ => ⟨hg rk j, le_rfl, by simp⟩
    rwa [Reduce.tree_sum n _ hn, Reduce.tree_sum n _ hn, zero_add] at this
  obtain ⟨-, h1⟩ := allRed_rel op (Close good val c) mono step _ _ _ _ l out hall fun r _ => loc r
  rw [hperm.length_eq, List.length_range] at h1
  have es : ∀ F : Nat → ℝ, (l.map F).sum = ∑ rk ∈ Finset.range nranks, F rk := by
    intro F
    rw [(hperm.map F).sum_eq]
    clear * -
    induction nranks with
    | zero => simp
    | succ k ih => rw [List.range_succ, List.map_append, List.sum_append, ih, Finset.sum_range_succ]; simp
  rw [es, es] at h1
  exact ⟨h1.1, h1.2.2⟩

/-- C61: the reduction of a field of `double`, whatever the schedule of the loops and the way the ranks are combined, is right up to one precision per
level of sums: as many as the logarithm of the number of sites of a rank, plus the number of ranks. -/
theorem C61_reduce (nranks n : Nat) (hn : 0 < n) (sched : Nat → Nat → List Nat) (hl : ∀ rk, Reduce.Legal (sched rk)) (field : Nat → Nat → ℝ)
    (hf : ∀ rk i, field rk i ∈ f.F) (out : ℝ) (h : IsDoubleReduce R nranks sched n field out) :
    out ∈ f.F ∧ |out - ∑ rk ∈ Finset.range nranks, ∑ i ∈ Finset.range n, field rk i| ≤
      ((1 + f.u) ^ (Nat.clog 2 n + (nranks - 1)) - 1) * ∑ rk ∈ Finset.range nranks, ∑ i ∈ Finset.range n, |field rk i| := by
  refine reduced_error R.add (good := fun x => x ∈ f.F) (val := fun x => x) u_pos.le (fun a b ha hb => ⟨rnd_mem R _, ?_⟩) nranks n hn sched hl field hf out h
  have := rnd_rel R ((F.mulMin ha).add (F.mulMin hb))
  rw [abs_sub_comm]
  exact this.trans (mul_le_mul_of_nonneg_left (abs_add_le _ _) u_pos.le)

/-- C61: the precise reduction is right up to five times the square of the precision per level, plus the conversion to `double` of the result. -/
theorem C61_precise_reduce (tiny : ℝ) (nranks n : Nat) (hn : 0 < n) (sched : Nat → Nat → List Nat) (hl : ∀ rk, Reduce.Legal (sched rk)) (field : Nat → Nat → ℝ)
    (hf : ∀ rk i, field rk i ∈ f.F) (out : ℝ) (h : IsPreciseReduce R tiny nranks sched n field out) :
    out ∈ f.F ∧ ∃ v : ℝ, |out - v| ≤ 4 * f.u * |v| ∧ |v - ∑ rk ∈ Finset.range nranks, ∑ i ∈ Finset.range n, field rk i| ≤
      ((1 + 5 * f.u ^ 2) ^ (Nat.clog 2 n + (nranks - 1)) - 1) * ∑ rk ∈ Finset.range nranks, ∑ i ∈ Finset.range n, |field rk i| := by
  obtain ⟨tmp, h1, h2⟩ := h
  obtain ⟨g, e⟩ := reduced_error (DD.add R) (good := fun a => a.Weak f) (val := DD.val) (by positivity) (fun a b ha hb => ⟨(C61_sum R ha hb).1.weak, (C61_sum R ha hb).2⟩)
    nranks n hn sched hl (fun rk i => DD.ofDouble (field rk i)) (fun rk i => (norm_ofDouble R (hf rk i)).weak) tmp h1
  obtain ⟨r1, r2⟩ := C61_round_accuracy g h2
  have ev : ∀ x, (DD.ofDouble x).val = x := fun x => by unfold DD.val DD.ofDouble; simp
  simp only [ev] at e
  exact ⟨r2, tmp.val, r1, e⟩

/-- the reductions always have a result: three ranks with two sites each, in the given order -/
example (field : Nat → Nat → ℝ) : ∃ out, IsDoubleReduce R 3 (fun _ => List.range) 2 field out :=
  ⟨_, [0, 1, 2], by decide, AllRed.node (l1 := [0, 1]) (l2 := [2]) (AllRed.node (l1 := [0]) (l2 := [1]) (AllRed.one 0) (AllRed.one 1)) (AllRed.one 2)⟩

/-- near one a small number is lost -/
theorem one_add_small (R : Rounding binary64) {x : ℝ} (hx : |x| < 2 ^ (-54 : ℤ)) : R.rnd (1 + x) = 1 := by
  have one : (1 : ℝ) ∈ binary64.F := by
    have := F.pow (f := binary64) (k := 0) (by show (-1074 : ℤ) ≤ 0; norm_num)
    simpa using this
  have h := R.nearest (1 + x)
  have h1 := h.2 1 one
  rw [add_sub_cancel_left] at h1
  generalize R.rnd (1 + x) = s at h h1
  have e54 : (2 : ℝ) ^ (-54 : ℤ) ≤ 1 / 1000000 := by
    calc (2 : ℝ) ^ (-54 : ℤ) ≤ 2 ^ (-20 : ℤ) := two_mono (by norm_num)
      _ ≤ _ := by norm_num
  have hx' := _root_.abs_lt.1 hx
  have h1' := _root_.abs_le.1 (h1.trans hx.le)
  have h1'' := _root_.abs_lt.1 (lt_of_le_of_lt h1 hx)
  have hs1 : (2 : ℝ) ^ ((binary64.p : ℤ) - 1 + -53) ≤ |s| := by
    have : (2 : ℝ) ^ ((binary64.p : ℤ) - 1 + -53) = 1 / 2 := by
      show (2 : ℝ) ^ ((53 : ℕ) - 1 + -53 : ℤ) = 1 / 2
      norm_num
    rw [this]
    clear this
    refine le_trans ?_ (le_abs_self s)
    have t1 := hx'.1
    have t2 := h1''.2
    clear hx h1' h1'' hx'
    generalize (2 : ℝ) ^ (-54 : ℤ) = E at e54 t1 t2
    linarith
  have hm := (F.mul_of_ge h.1 hs1).sub (show Mul (-53) (1 : ℝ) from ⟨2 ^ 53, by push_cast; norm_num⟩)
  have hlt : |s - 1| < 2 ^ ((0 : ℕ) + -53 : ℤ) := by
    have : (2 : ℝ) ^ (-53 : ℤ) = 2 * 2 ^ (-54 : ℤ) := by rw [two_pred (-53)]; norm_num
    push_cast
    rw [this, _root_.abs_lt]
    constructor <;> linarith
  have := hm.gap hlt
  push_cast at this
  rw [sub_self] at this
  have := abs_nonpos_iff.1 this
  linarith

/-- C61: the check made at startup does not stop the program: for any small enough `double`, as that nearest to `1e-20`, adding it to one and then
subtracting one gives it back, and so does the conversion to `double`. -/
theorem C61_check_128 (R : Rounding binary64) (tiny : ℝ) {x z : ℝ} (hx : x ∈ binary64.F) (hs : |x| < 2 ^ (-54 : ℤ)) (hz : IsRoundDown binary64 tiny (check128 R x) z) : z = x := by
  have h1 : DD.add R (DD.ofDouble 1) (DD.ofDouble x) = ⟨1, x⟩ := by
    have e := one_add_small R hs
    have e1 : R.rnd 1 = 1 := by
      have := one_add_small R (x := 0) (by rw [abs_zero]; exact two_pos _)
      rwa [add_zero] at this
    unfold DD.add DD.ofDouble Rounding.add Rounding.sub
    simp only [e, e1, sub_self, rnd_zero, sub_zero, rnd_eq R hx, add_zero]
  have h2 : check128 R x = ⟨x, 0⟩ := by
    unfold check128
    rw [h1]
    have e : R.rnd (-1) = -1 := by
      have one : (1 : ℝ) ∈ binary64.F := by
        have := F.pow (f := binary64) (k := 0) (by show (-1074 : ℤ) ≤ 0; norm_num)
        simpa using this
      exact rnd_eq R (F.neg one)
    have e1 : R.rnd 1 = 1 := by
      have := one_add_small R (x := 0) (by rw [abs_zero]; exact two_pos _)
      rwa [add_zero] at this
    have z0 : (1 : ℝ) + -1 = 0 := by norm_num
    have z1 : (0 : ℝ) - 1 = -1 := by norm_num
    unfold DD.add DD.ofDouble Rounding.add Rounding.sub
    simp only [z0, rnd_zero, z1, e, e1, sub_self, zero_add, rnd_eq R hx, add_zero, sub_zero, sub_neg_eq_add, zero_sub, neg_neg, z0, rnd_zero]
  rw [h2] at hz
  unfold IsRoundDown at hz
  simpa using hz

/-- `1e-20` is small enough -/
example : |(1e-20 : ℝ)| < 2 ^ (-54 : ℤ) := by
  rw [abs_of_pos (by norm_num)]; norm_num

end

end Nissa.Flt
