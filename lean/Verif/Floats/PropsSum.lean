import Verif.Floats.PropsExact

/-! # C61: sums, differences and comparisons of double-double numbers -/

set_option linter.all false

namespace Nissa.Flt

noncomputable section

variable {f : Fmt} (R : Rounding f)

/-- the two parts do not overlap: the first is a nearest number of the format to the number meant -/
def DD.Weak (f : Fmt) (a : DD) : Prop := a.lo ∈ f.F ∧ f.IsRN (a.hi + a.lo) a.hi

/-- the first part is the rounding of the number meant -/
def DD.Norm (a : DD) : Prop := a.lo ∈ f.F ∧ R.rnd (a.hi + a.lo) = a.hi

theorem DD.Norm.weak {R : Rounding f} {a : DD} (h : a.Norm R) : a.Weak f := ⟨h.1, by rw [← h.2]; rw [h.2]; have := R.nearest (a.hi + a.lo); rwa [h.2] at this⟩

/-- a `double` is a double-double number -/
theorem norm_ofDouble {x : ℝ} (h : x ∈ f.F) : (DD.ofDouble x).Norm R := ⟨F.zero, by unfold DD.ofDouble; simp only [add_zero]; exact rnd_eq R h⟩

theorem DD.Weak.neg {a : DD} (h : a.Weak f) : a.neg.Weak f := ⟨F.neg h.1, by
  have := h.2.neg
  unfold DD.neg; simp only
  rwa [show -a.hi + -a.lo = -(a.hi + a.lo) by ring]⟩

/-- unit of the first part and size of the second -/
theorem DD.Weak.unit {a : DD} (h : a.Weak f) : ∃ k : ℤ, f.emin ≤ k ∧ Mul k a.hi ∧ |a.hi| < 2 ^ ((f.p : ℤ) + k) ∧ (k = f.emin ∨ (2 : ℝ) ^ ((f.p : ℤ) - 1 + k) ≤ |a.hi|) ∧
    |a.lo| ≤ 2 ^ (k - 1) := by
  obtain ⟨k, k1, k2, k3, k4⟩ := F.canon h.2.1
  refine ⟨k, k1, k2, k3, k4, ?_⟩
  have hp := two_pos k
  have hg := k2.gap k3
  rw [two_pred k] at hg
  have h1 := two_pos (k - 1)
  have e := two_pred k
  -- the neighbours
  have mem : ∀ y, Mul k y → |y| ≤ |a.hi| + 2 ^ k → y ∈ f.F := fun y my hy => F.of_mul k1 my (by rw [e] at hy; linarith)
  have n1 := h.2.2 (a.hi + 2 ^ k) (mem _ (k2.add (Mul.pow k)) ((abs_add_le _ _).trans (by rw [abs_of_pos hp])))
  have n2 := h.2.2 (a.hi - 2 ^ k) (mem _ (k2.sub (Mul.pow k)) ((abs_sub _ _).trans (by rw [abs_of_pos hp])))
  rw [show a.hi + a.lo - a.hi = a.lo by ring, show a.hi + a.lo - (a.hi + 2 ^ k) = a.lo - 2 ^ k by ring] at n1
  rw [show a.hi + a.lo - a.hi = a.lo by ring, show a.hi + a.lo - (a.hi - 2 ^ k) = a.lo + 2 ^ k by ring] at n2
  rw [e] at n1 n2
  by_contra hc
  push Not at hc
  rcases abs_cases a.lo with ⟨c1, c2⟩ | ⟨c1, c2⟩ <;> rw [c1] at hc n1 n2
  · rcases abs_cases (a.lo - 2 * 2 ^ (k - 1)) with ⟨d1, d2⟩ | ⟨d1, d2⟩ <;> rw [d1] at n1 <;> linarith
  · rcases abs_cases (a.lo + 2 * 2 ^ (k - 1)) with ⟨d1, d2⟩ | ⟨d1, d2⟩ <;> rw [d1] at n2 <;> linarith

/-- the second part is small -/
theorem DD.Weak.lo_le {a : DD} (h : a.Weak f) : |a.lo| ≤ f.u * |a.hi| := by
  obtain ⟨k, k1, k2, k3, k4, k5⟩ := h.unit
  have h6 := f.six
  rcases k4 with h | h4
  · -- nothing below the smallest numbers
    have m0 : Mul f.emin a.lo := F.mulMin (‹a.Weak f›).1
    obtain ⟨m, hm⟩ := m0
    have hp := two_pos f.emin
    rw [h] at k5
    have : a.lo = 0 := by
      rw [hm, abs_mul, abs_of_pos hp] at k5
      have e := two_pred f.emin
      have : |(m : ℝ)| < 1 := by
        by_contra hc
        push Not at hc
        have := two_pos (f.emin - 1)
        nlinarith
      have : |m| < 1 := by exact_mod_cast this
      have : m = 0 := by rw [← Int.abs_lt_one_iff]; exact this
      rw [hm, this]; simp
    rw [this, abs_zero]
    exact mul_nonneg u_pos.le (abs_nonneg _)
  · refine k5.trans ?_
    have : (2 : ℝ) ^ (k - 1) = f.u * 2 ^ ((f.p : ℤ) - 1 + k) := by
      unfold Fmt.u; rw [← two_add]; congr 1; ring
    rw [this]
    exact mul_le_mul_of_nonneg_left h4 u_pos.le

/-- both parts are small with respect to the number meant -/
theorem DD.Weak.val_le {a : DD} (h : a.Weak f) : |a.lo| ≤ f.u * |a.val| ∧ |a.hi| ≤ (1 + f.u) * |a.val| := by
  have h1 : |a.val - a.hi| ≤ f.u * |a.val| := h.2.rel ((F.mulMin h.2.1).add (F.mulMin h.1))
  have h2 : a.val - a.hi = a.lo := by unfold DD.val; ring
  rw [h2] at h1
  refine ⟨h1, ?_⟩
  have : |a.hi| ≤ |a.val| + |a.lo| := by rw [← h2]; have := abs_sub a.val (a.val - a.hi); rwa [sub_sub_cancel] at this
  linarith

/-- the rounded sum is a multiple of half the largest of the two units -/
theorem sum_unit {x y s : ℝ} {kx ky : ℤ} (hx1 : f.emin ≤ kx) (hx2 : Mul kx x) (hx4 : kx = f.emin ∨ (2 : ℝ) ^ ((f.p : ℤ) - 1 + kx) ≤ |x|)
    (hy1 : f.emin ≤ ky) (hy2 : Mul ky y) (hy3 : |y| < 2 ^ ((f.p : ℤ) + ky)) (hle : ky ≤ kx) (h : f.IsRN (x + y) s) : Mul (kx - 1) s := by
  rcases (by omega : ky = kx ∨ ky = kx - 1 ∨ ky ≤ kx - 2) with e | e | e
  · exact (h.mul hx1 (hx2.add (hy2.mono e.ge))).mono (by omega)
  · exact h.mul (by omega) ((hx2.mono (by omega)).add (hy2.mono (by omega)))
  · have hn : (2 : ℝ) ^ ((f.p : ℤ) - 1 + kx) ≤ |x| := hx4.resolve_left (by omega)
    have t : |x| ≤ |x + y| + |y| := by have := abs_sub (x + y) y; rwa [add_sub_cancel_right] at this
    have e1 : (2 : ℝ) ^ ((f.p : ℤ) - 1 + kx) = 2 * 2 ^ ((f.p : ℤ) - 1 + (kx - 1)) := by rw [← two_succ]; congr 1; ring
    have e2 : |y| ≤ (2 : ℝ) ^ ((f.p : ℤ) - 1 + (kx - 1)) := hy3.le.trans (two_mono (by omega))
    have h6 := f.six
    exact F.mul_of_ge h.1 (h.abs_ge (F.pow (by omega)) (by linarith))

/-- the quick sum is exact if the first number is a multiple of a unit of which the second is not too large -/
theorem quick_exact_of {a b : ℝ} {j : ℤ} (ha : a ∈ f.F) (hb : b ∈ f.F) (mj : Mul j a) (hj : |b| < 2 ^ ((f.p : ℤ) + j)) :
    R.sub b (R.sub (R.add a b) a) = a + b - R.add a b := by
  obtain ⟨k, k1, k2, k3, k4⟩ := F.canon hb
  refine quick_exact R ha k1 ?_ k2 k3
  rcases k4 with h | h
  · rw [h]; exact F.mulMin ha
  · have := two_lt.1 (lt_of_le_of_lt h hj)
    exact mj.mono (by omega)

theorem rnd_abs_le {x : ℝ} {k : ℤ} (hk : f.emin ≤ k) (h : |x| ≤ 2 ^ k) : |R.rnd x| ≤ 2 ^ k := (R.nearest x).abs_le (F.pow hk) h

theorem two_half {a b : ℝ} {i j k : ℤ} (ha : |a| ≤ 2 ^ i) (hb : |b| ≤ 2 ^ j) (hi : i + 1 ≤ k) (hj : j + 1 ≤ k) : |a + b| ≤ 2 ^ k := by
  have t1 := two_mono hi
  have t2 := two_mono hj
  rw [two_succ] at t1 t2
  have := abs_add_le a b
  linarith

/-- what the sum computes: `t1+t2` exactly -/
theorem add_spec {a b : DD} (ha : a.Weak f) (hb : b.Weak f) :
    let t1 := R.rnd (a.hi + b.hi)
    let t2 := R.rnd (R.rnd (a.hi + b.hi - t1 + a.lo) + b.lo)
    (DD.add R a b).hi = R.rnd (t1 + t2) ∧ (DD.add R a b).val = t1 + t2 ∧ (DD.add R a b).lo ∈ f.F := by
  obtain ⟨ka, a1, a2, a3, a4, a5⟩ := ha.unit
  obtain ⟨kb, b1, b2, b3, b4, b5⟩ := hb.unit
  have h6 := f.six
  have hx := two_sum_exact R ha.2.1 hb.2.1
  intro t1 t2
  have ht2 : R.add (R.add (R.add (R.sub b.hi (R.sub (R.add a.hi b.hi) a.hi)) (R.sub a.hi (R.sub (R.add a.hi b.hi) (R.sub (R.add a.hi b.hi) a.hi)))) a.lo) b.lo = t2 := by
    rw [hx]; rfl
  have hq : R.sub t2 (R.sub (R.add t1 t2) t1) = t1 + t2 - R.add t1 t2 := by
    -- the largest unit
    obtain ⟨K, hK1, hK2, hK3, hm, hK⟩ : ∃ K : ℤ, f.emin ≤ K ∧ ka ≤ K ∧ kb ≤ K ∧ Mul (K - 1) t1 ∧ (K = ka ∨ K = kb) := by
      rcases le_total kb ka with hle | hle
      · exact ⟨ka, a1, le_rfl, hle, sum_unit a1 a2 a4 b1 b2 b3 hle (R.nearest _), .inl rfl⟩
      · exact ⟨kb, b1, hle, le_rfl, sum_unit b1 b2 b4 a1 a2 a3 hle (by rw [add_comm]; exact R.nearest _), .inr rfl⟩
    have d : |a.hi + b.hi - t1| ≤ 2 ^ K := by
      have := (R.nearest (a.hi + b.hi)).err (k := K + 1) (by omega) (two_half (a3.le.trans (two_mono (by omega))) (b3.le.trans (two_mono (by omega)))
        (i := (f.p : ℤ) + K) (j := (f.p : ℤ) + K) (by omega) (by omega))
      rwa [add_sub_cancel_right] at this
    have al : |a.lo| ≤ 2 ^ K := a5.trans (two_mono (by omega))
    have bl : |b.lo| ≤ 2 ^ K := b5.trans (two_mono (by omega))
    have s1 := rnd_abs_le R (k := K + 1) (by omega) (two_half d al (k := K + 1) le_rfl le_rfl)
    have s2 : |t2| ≤ 2 ^ (K + 2) := rnd_abs_le R (k := K + 2) (by omega) (two_half s1 bl (k := K + 2) (by omega) (by omega))
    exact quick_exact_of R (rnd_mem R _) (rnd_mem R _) hm (lt_of_le_of_lt s2 (two_lt.2 (by omega)))
  have e : DD.add R a b = ⟨R.add t1 t2, R.sub t2 (R.sub (R.add t1 t2) t1)⟩ := by
    unfold DD.add
    simp only [ht2]
    rfl
  rw [e]
  refine ⟨rfl, ?_, rnd_mem R _⟩
  unfold DD.val
  simp only
  rw [hq]; ring

theorem rnd_rel {x : ℝ} (hm : Mul f.emin x) : |x - R.rnd x| ≤ f.u * |x| := (R.nearest x).rel hm

/-- C61: the sum of two double-double numbers is a double-double number, whose value is the sum of the two values up to five times the square of
the precision of `double`, times the sum of the moduli of the two. -/
theorem C61_sum {a b : DD} (ha : a.Weak f) (hb : b.Weak f) :
    (DD.add R a b).Norm R ∧ |(DD.add R a b).val - (a.val + b.val)| ≤ 5 * f.u ^ 2 * (|a.val| + |b.val|) := by
  obtain ⟨h1, h2, h3⟩ := add_spec R ha hb
  constructor
  · refine ⟨h3, ?_⟩
    have : (DD.add R a b).hi + (DD.add R a b).lo = (DD.add R a b).val := rfl
    rw [this, h2, h1]
  · rw [h2]
    obtain ⟨al, ah⟩ := ha.val_le
    obtain ⟨bl, bh⟩ := hb.val_le
    have hu := u_small (f := f)
    have hu0 := u_pos (f := f)
    have m0 : Mul f.emin (a.hi + b.hi) := (F.mulMin ha.2.1).add (F.mulMin hb.2.1)
    have e0 := rnd_rel R m0
    have me : Mul f.emin (a.hi + b.hi - R.rnd (a.hi + b.hi)) := m0.sub (F.mulMin (rnd_mem R _))
    set t1 := R.rnd (a.hi + b.hi)
    have e1 := rnd_rel R (me.add (F.mulMin ha.1))
    have e2 := rnd_rel R (x := R.rnd (a.hi + b.hi - t1 + a.lo) + b.lo) ((F.mulMin (rnd_mem R _)).add (F.mulMin hb.1))
    set d := a.hi + b.hi - t1 with hd
    set v := R.rnd (d + a.lo)
    set t2 := R.rnd (v + b.lo)
    have hres : t1 + t2 - (a.val + b.val) = -((d + a.lo - v) + (v + b.lo - t2)) := by
      unfold DD.val; rw [hd]; ring
    rw [hres, abs_neg]
    refine (abs_add_le _ _).trans ?_
    have n1 := abs_add_le a.hi b.hi
    have n2 := abs_add_le d a.lo
    have n3 := abs_add_le v b.lo
    have n4 : |v| ≤ |d + a.lo| + |d + a.lo - v| := by have := abs_sub (d + a.lo) (d + a.lo - v); rwa [sub_sub_cancel] at this
    have A0 := abs_nonneg a.val
    have B0 := abs_nonneg b.val
    generalize f.u = u at *
    generalize |a.val| = A at *
    generalize |b.val| = B at *
    -- sizes
    have k0 : |d| ≤ u * ((1 + u) * (A + B)) := e0.trans (mul_le_mul_of_nonneg_left (by linarith) hu0.le)
    have k1 : |d + a.lo| ≤ u * ((1 + u) * (A + B) + A) := by linarith
    have k2 : |d + a.lo - v| ≤ u * (u * ((1 + u) * (A + B) + A)) := e1.trans (mul_le_mul_of_nonneg_left k1 hu0.le)
    have k3 : |v + b.lo| ≤ u * ((1 + u) * (A + B) + A) + u * (u * ((1 + u) * (A + B) + A)) + u * B := by linarith
    have k4 : |v + b.lo - t2| ≤ u * (u * ((1 + u) * (A + B) + A) + u * (u * ((1 + u) * (A + B) + A)) + u * B) := e2.trans (mul_le_mul_of_nonneg_left k3 hu0.le)
    have fin : u * (u * ((1 + u) * (A + B) + A)) + u * (u * ((1 + u) * (A + B) + A) + u * (u * ((1 + u) * (A + B) + A)) + u * B) =
        u ^ 2 * ((2 + 3 * u + u ^ 2) * (A + B) + (2 + u) * A + B) := by ring
    have : (2 + 3 * u + u ^ 2) * (A + B) + (2 + u) * A + B ≤ 5 * (A + B) := by
      have c1 : u ^ 2 ≤ 1 / 64 := by nlinarith
      have c2 : (2 + 3 * u + u ^ 2) * (A + B) ≤ (2 + 3 / 64 + 1 / 64) * (A + B) := mul_le_mul_of_nonneg_right (by linarith) (by linarith)
      have c3 : (2 + u) * A ≤ (2 + 1 / 64) * A := mul_le_mul_of_nonneg_right (by linarith) A0
      linarith
    have := mul_le_mul_of_nonneg_left this (sq_nonneg u)
    linarith

/-- C61: the same for the difference. -/
theorem C61_difference {a b : DD} (ha : a.Weak f) (hb : b.Weak f) :
    (DD.sub R a b).Norm R ∧ |(DD.sub R a b).val - (a.val - b.val)| ≤ 5 * f.u ^ 2 * (|a.val| + |b.val|) := by
  have := C61_sum R ha hb.neg
  have e : b.neg.val = -b.val := by unfold DD.neg DD.val; ring
  rw [e, abs_neg] at this
  exact this

/-- C61: the comparisons agree with the order of the numbers meant. -/
theorem C61_comparisons {a b : DD} (ha : a.Norm R) (hb : b.Norm R) :
    (DD.eq a b ↔ a.val = b.val) ∧ (DD.lt a b ↔ a.val < b.val) ∧ (DD.le a b ↔ a.val ≤ b.val) := by
  have va : R.rnd a.val = a.hi := ha.2
  have vb : R.rnd b.val = b.hi := hb.2
  have na := R.nearest a.val
  have nb := R.nearest b.val
  rw [va] at na
  rw [vb] at nb
  -- rounding is increasing
  have mono : a.hi ≠ b.hi → (a.hi < b.hi ↔ a.val < b.val) := by
    intro hne
    have hv : a.val ≠ b.val := fun h => hne (by rw [← va, ← vb, h])
    have up : ∀ {x y s t : ℝ}, f.IsRN x s → f.IsRN y t → s < t → x ≤ y := by
      intro x y s t hx hy hst
      have p1 := hx.2 t hy.1
      have p2 := hy.2 s hx.1
      have q1 : x ≤ (s + t) / 2 := by
        by_contra hc
        push Not at hc
        rw [abs_of_pos (by linarith : 0 < x - s)] at p1
        rcases abs_cases (x - t) with ⟨d1, -⟩ | ⟨d1, -⟩ <;> rw [d1] at p1 <;> linarith
      have q2 : (s + t) / 2 ≤ y := by
        by_contra hc
        push Not at hc
        rw [abs_of_neg (by linarith : y - t < 0)] at p2
        rcases abs_cases (y - s) with ⟨d1, -⟩ | ⟨d1, -⟩ <;> rw [d1] at p2 <;> linarith
      linarith
    constructor
    · intro h; exact lt_of_le_of_ne (up na nb h) hv
    · intro h
      rcases lt_or_gt_of_ne hne with h1 | h1
      · exact h1
      · exact absurd (up nb na h1) (not_le.2 h)
  refine ⟨?_, ?_, ?_⟩
  · unfold DD.eq
    constructor
    · rintro ⟨h1, h2⟩; unfold DD.val; rw [h1, h2]
    · intro h
      have : a.hi = b.hi := by rw [← va, ← vb, h]
      refine ⟨this, ?_⟩
      unfold DD.val at h; linarith
  · unfold DD.lt
    by_cases h : a.hi = b.hi
    · rw [if_pos h]; unfold DD.val; rw [h]; constructor <;> intro <;> linarith
    · rw [if_neg h]; exact mono h
  · unfold DD.le
    by_cases h : a.hi = b.hi
    · rw [if_pos h]; unfold DD.val; rw [h]; constructor <;> intro <;> linarith
    · rw [if_neg h]
      have hv : a.val ≠ b.val := fun hh => h (by rw [← va, ← vb, hh])
      rw [Ne.le_iff_lt h, Ne.le_iff_lt hv]; exact mono h

end

end Nissa.Flt
