import Verif.Floats.PropsSum

/-! # C61: products of double-double numbers -/

set_option linter.all false

namespace Nissa.Flt

noncomputable section

/-- half the smallest number, the error of an underflow -/
def Fmt.eta (f : Fmt) : ℝ := 2 ^ (f.emin - 1)

theorem rnd_any {f : Fmt} (R : Rounding f) (x : ℝ) : |x - R.rnd x| ≤ f.u * |x| + f.eta := by
  have he : 0 < f.eta := two_pos _
  have h := R.nearest x
  by_cases hx : x = 0
  · rw [hx, rnd_zero]; simp; exact he.le
  obtain ⟨e, h1, h2⟩ := exp_exists hx f.p
  rcases le_total f.emin e with hk | hk
  · have := h.err hk h2.le
    have e2 : (2 : ℝ) ^ (e - 1) = f.u * 2 ^ ((f.p : ℤ) - 1 + e) := by unfold Fmt.u; rw [← two_add]; congr 1; ring
    rw [e2] at this
    have := mul_le_mul_of_nonneg_left h1 (u_pos (f := f)).le
    linarith
  · have := h.err le_rfl (h2.le.trans (two_mono (by omega)))
    have h0 : 0 ≤ f.u * |x| := mul_nonneg u_pos.le (abs_nonneg _)
    unfold Fmt.eta; linarith

theorem u64_small : binary64.u ≤ 1 / 1000000 := by
  unfold Fmt.u
  calc (2 : ℝ) ^ (-(binary64.p : ℤ)) ≤ 2 ^ (-20 : ℤ) := two_mono (by show -(53 : ℤ) ≤ -20; norm_num)
    _ ≤ 1 / 1000000 := by norm_num

theorem abs_of_err {x y d : ℝ} (h : |x - y| ≤ d) : |y| ≤ |x| + d := by
  have := abs_sub x (x - y)
  rw [sub_sub_cancel] at this
  linarith

/-- the errors of the product, in terms of the product `P` of the first parts -/
theorem prod_errors (R : Rounding binary64) {ah al bh bl P : ℝ} (hP : P = |ah * bh|) (h1 : |al| ≤ binary64.u * |ah|) (h2 : |bl| ≤ binary64.u * |bh|)
    (hη : binary64.eta ≤ binary64.u * (binary64.u * P) / 2) :
    let c11 := R.rnd (ah * bh)
    let c2 := R.rnd (R.rnd (ah * bl) + R.rnd (al * bh))
    let t1 := R.rnd (c11 + c2)
    let t2 := R.rnd (R.rnd (R.rnd (al * bl) + (c11 + c2 - t1)) + (ah * bh - c11))
    |t2| ≤ |t1| ∧ |t1 + t2 - (ah + al) * (bh + bl)| ≤ 10 * (binary64.u * (binary64.u * P)) := by
  intro c11 c2 t1 t2
  have hu := u64_small
  have hu0 := u_pos (f := binary64)
  have P0 : 0 ≤ P := by rw [hP]; exact abs_nonneg _
  have b1 : |ah * bl| ≤ binary64.u * P := by
    rw [hP, abs_mul, abs_mul]
    calc |ah| * |bl| ≤ |ah| * (binary64.u * |bh|) := mul_le_mul_of_nonneg_left h2 (abs_nonneg _)
      _ = _ := by ring
  have b2 : |al * bh| ≤ binary64.u * P := by
    rw [hP, abs_mul, abs_mul]
    calc |al| * |bh| ≤ (binary64.u * |ah|) * |bh| := mul_le_mul_of_nonneg_right h1 (abs_nonneg _)
      _ = _ := by ring
  have b3 : |al * bl| ≤ binary64.u * (binary64.u * P) := by
    rw [hP, abs_mul, abs_mul]
    calc |al| * |bl| ≤ (binary64.u * |ah|) * (binary64.u * |bh|) := mul_le_mul h1 h2 (abs_nonneg _) (by positivity)
      _ = _ := by ring
  have e0 := rnd_any R (ah * bh)
  have e1 := rnd_any R (ah * bl)
  have e2 := rnd_any R (al * bh)
  have e3 := rnd_any R (al * bl)
  set v1 := R.rnd (ah * bl)
  set v2 := R.rnd (al * bh)
  set v3 := R.rnd (al * bl)
  have e4 := rnd_rel R (x := v1 + v2) ((F.mulMin (rnd_mem R _)).add (F.mulMin (rnd_mem R _)))
  have e5 := rnd_rel R (x := c11 + c2) ((F.mulMin (rnd_mem R _)).add (F.mulMin (rnd_mem R _)))
  have md : Mul binary64.emin (c11 + c2 - t1) := ((F.mulMin (rnd_mem R _)).add (F.mulMin (rnd_mem R _))).sub (F.mulMin (rnd_mem R _))
  have e6 := rnd_rel R (x := v3 + (c11 + c2 - t1)) ((F.mulMin (rnd_mem R _)).add md)
  have e7 := rnd_any R (R.rnd (v3 + (c11 + c2 - t1)) + (ah * bh - c11))
  set v4 := R.rnd (v3 + (c11 + c2 - t1))
  set d := c11 + c2 - t1 with hd
  set c21 := ah * bh - c11 with hc
  change |ah * bh - c11| ≤ _ at e0
  change |v1 + v2 - c2| ≤ _ at e4
  change |c11 + c2 - t1| ≤ _ at e5
  change |v4 + c21 - t2| ≤ _ at e7
  rw [← hP] at e0
  generalize hη' : binary64.eta = η at *
  have η0 : 0 ≤ η := by rw [← hη']; exact (two_pos _).le
  clear hη'
  generalize binary64.u = u at *
  generalize hA : u * P = A at *
  generalize hB : u * A = B at *
  have A0 : 0 ≤ A := by rw [← hA]; positivity
  have B0 : 0 ≤ B := by rw [← hB]; positivity
  have uB : u * B ≤ B / 1000000 := by have := mul_le_mul_of_nonneg_right hu B0; linarith
  have AP : A ≤ P / 1000000 := by rw [← hA]; have := mul_le_mul_of_nonneg_right hu P0; linarith
  have BA : B ≤ A / 1000000 := by rw [← hB]; have := mul_le_mul_of_nonneg_right hu A0; linarith
  have times : ∀ {x a b c : ℝ}, |x| ≤ a * P + b * A + c * B → 0 ≤ c → u * |x| ≤ a * A + b * B + c * (B / 1000000) := by
    intro x a b c hx hc
    have t := mul_le_mul_of_nonneg_left hx hu0.le
    have t2 := mul_le_mul_of_nonneg_left uB hc
    have : u * (a * P + b * A + c * B) = a * A + b * B + c * (u * B) := by rw [← hB, ← hA]; ring
    linarith
  -- the errors in turn
  have f1 := times (x := ah * bl) (a := 0) (b := 1) (c := 0) (by linarith) le_rfl
  have f2 := times (x := al * bh) (a := 0) (b := 1) (c := 0) (by linarith) le_rfl
  have f3 := times (x := al * bl) (a := 0) (b := 0) (c := 1) (by linarith) (by norm_num)
  have g1 := abs_of_err e1
  have g2 := abs_of_err e2
  have g3 := abs_of_err e3
  have f4 := times (x := v1 + v2) (a := 0) (b := 2) (c := 3) (by have := abs_add_le v1 v2; linarith) (by norm_num)
  have g0 := abs_of_err e0
  have g4 := abs_of_err e4
  have hc2 : |c2| ≤ 2 * A + 6 * B := by have := abs_add_le v1 v2; linarith
  have f5 := times (x := c11 + c2) (a := 1) (b := 3) (c := 8) (by have := abs_add_le c11 c2; linarith) (by norm_num)
  have f6 := times (x := v3 + d) (a := 0) (b := 1) (c := 6) (by have := abs_add_le v3 d; linarith) (by norm_num)
  have g6 := abs_of_err e6
  have f7 := times (x := v4 + c21) (a := 0) (b := 2) (c := 9) (by
    have := abs_add_le v3 d
    have := abs_add_le v4 c21
    linarith) (by norm_num)
  constructor
  · have g7 := abs_of_err e7
    have t2le : |t2| ≤ 3 * A := by
      have := abs_add_le v3 d
      have := abs_add_le v4 c21
      linarith
    have hlow : P - (A + B) ≤ |c11| := by
      have := abs_sub_abs_le_abs_sub (ah * bh) c11
      rw [← hP] at this
      linarith
    have hs : |c11| - |c2| ≤ |c11 + c2| := by
      have := abs_sub (c11 + c2) c2
      rw [add_sub_cancel_right] at this; linarith
    have ht : |c11 + c2| - |d| ≤ |t1| := by
      have := abs_sub_abs_le_abs_sub (c11 + c2) t1
      linarith
    linarith
  · have split : t1 + t2 - (ah + al) * (bh + bl) = -((ah * bl - v1) + (al * bh - v2) + (v1 + v2 - c2) + (al * bl - v3) + (v3 + d - v4) + (v4 + c21 - t2)) := by
      rw [hd, hc]; ring
    rw [split, abs_neg]
    have s1 := abs_add_le ((ah * bl - v1) + (al * bh - v2) + (v1 + v2 - c2) + (al * bl - v3) + (v3 + d - v4)) (v4 + c21 - t2)
    have s2 := abs_add_le ((ah * bl - v1) + (al * bh - v2) + (v1 + v2 - c2) + (al * bl - v3)) (v3 + d - v4)
    have s3 := abs_add_le ((ah * bl - v1) + (al * bh - v2) + (v1 + v2 - c2)) (al * bl - v3)
    have s4 := abs_add_le ((ah * bl - v1) + (al * bh - v2)) (v1 + v2 - c2)
    have s5 := abs_add_le (ah * bl - v1) (al * bh - v2)
    linarith

/-- C61: the product of two double-double numbers is a double-double number, whose value is the product of the two values up to eleven times the square
of the precision of `double`, relative to the product. -/
theorem C61_product (R : Rounding binary64) {a b : DD} (ha : a.Weak binary64) (hb : b.Weak binary64) (h : NoUnderflow binary64 a.hi b.hi) :
    (DD.mul R a b).Norm R ∧ |(DD.mul R a b).val - a.val * b.val| ≤ 11 * binary64.u ^ 2 * |a.val * b.val| := by
  have hx := prod_exact R ha.2.1 hb.2.1 h
  obtain ⟨x1, x2, -⟩ := hx
  have hη : binary64.eta ≤ binary64.u * (binary64.u * |a.hi * b.hi|) / 2 ∨ a.hi * b.hi = 0 := by
    rcases h with h | h
    · exact .inr h
    · left
      have e : binary64.eta = binary64.u * (binary64.u * 2 ^ (2 * (binary64.p : ℤ) + binary64.emin)) / 2 := by
        unfold Fmt.eta Fmt.u
        rw [← two_add, ← two_add]
        have := two_pred (-(binary64.p : ℤ) + (-(binary64.p : ℤ) + (2 * (binary64.p : ℤ) + binary64.emin)))
        rw [this, show -(binary64.p : ℤ) + (-(binary64.p : ℤ) + (2 * (binary64.p : ℤ) + binary64.emin)) - 1 = binary64.emin - 1 by ring]; ring
      rw [e]
      have hu0 := u_pos (f := binary64)
      have := mul_le_mul_of_nonneg_left (mul_le_mul_of_nonneg_left h hu0.le) hu0.le
      linarith
  set c11 := R.rnd (a.hi * b.hi) with hc11
  set c2 := R.rnd (R.rnd (a.hi * b.lo) + R.rnd (a.lo * b.hi)) with hc2
  set t1 := R.rnd (c11 + c2) with ht1
  set t2 := R.rnd (R.rnd (R.rnd (a.lo * b.lo) + (c11 + c2 - t1)) + (a.hi * b.hi - c11)) with ht2
  have hmul : DD.mul R a b = ⟨R.add t1 t2, R.sub t2 (R.sub (R.add t1 t2) t1)⟩ := by
    have hcm : ∀ x, R.mul x splitConst = R.mul splitConst x := by intro x; unfold Rounding.mul; rw [mul_comm]
    have y1 := two_sum_exact R (a := c11) (b := c2) (rnd_mem R _) (rnd_mem R _)
    change _ = c11 + c2 - t1 at y1
    unfold split at x2
    unfold DD.mul
    simp only [hcm] at x2 ⊢
    simp only [x2]
    have z1 : R.mul a.hi b.hi = c11 := rfl
    have z2 : R.add (R.mul a.hi b.lo) (R.mul a.lo b.hi) = c2 := rfl
    simp only [z1, z2]
    simp only [y1]
    rfl
  have hzero : a.hi * b.hi = 0 → a.hi = 0 ∧ a.lo = 0 ∨ b.hi = 0 ∧ b.lo = 0 := by
    intro h0
    have aux : ∀ {c : DD}, c.Weak binary64 → c.hi = 0 → c.lo = 0 := by
      intro c hc h
      have := hc.lo_le
      rw [h, abs_zero, mul_zero] at this
      exact abs_nonpos_iff.1 this
    rcases mul_eq_zero.1 h0 with h | h
    · exact .inl ⟨h, aux ha h⟩
    · exact .inr ⟨h, aux hb h⟩
  have key : |t2| ≤ |t1| ∧ |t1 + t2 - a.val * b.val| ≤ 10 * (binary64.u * (binary64.u * |a.hi * b.hi|)) := by
    rcases hη with hη | h0
    · exact prod_errors R rfl ha.lo_le hb.lo_le hη
    · rcases hzero h0 with ⟨p, q⟩ | ⟨p, q⟩
      · have : c11 = 0 := by rw [hc11, p, zero_mul, rnd_zero]
        have e2 : c2 = 0 := by rw [hc2, p, q, zero_mul, zero_mul, rnd_zero, add_zero, rnd_zero]
        have e3 : t1 = 0 := by rw [ht1, this, e2, add_zero, rnd_zero]
        have e4 : t2 = 0 := by rw [ht2, this, e2, e3, p, q]; simp [rnd_zero]
        rw [e3, e4]; unfold DD.val; rw [p, q]; simp
      · have : c11 = 0 := by rw [hc11, p, mul_zero, rnd_zero]
        have e2 : c2 = 0 := by rw [hc2, p, q, mul_zero, mul_zero, rnd_zero, add_zero, rnd_zero]
        have e3 : t1 = 0 := by rw [ht1, this, e2, add_zero, rnd_zero]
        have e4 : t2 = 0 := by rw [ht2, this, e2, e3, p, q]; simp [rnd_zero]
        rw [e3, e4]; unfold DD.val; rw [p, q]; simp
  obtain ⟨k1, k2, k3⟩ := C61_quick_two_summ R (a := t1) (b := t2) (rnd_mem R _) (rnd_mem R _) key.1
  unfold quick_two_summ at k1 k2 k3
  simp only at k1 k2 k3
  rw [hmul]
  refine ⟨⟨k3, ?_⟩, ?_⟩
  · simp only; rw [k2]; rfl
  · have : (DD.mk (R.add t1 t2) (R.sub t2 (R.sub (R.add t1 t2) t1))).val = t1 + t2 := k2
    rw [this]
    refine key.2.trans ?_
    have hu := u64_small
    have hu0 := u_pos (f := binary64)
    have hle : |a.hi * b.hi| ≤ (1 + binary64.u) * |a.val| * ((1 + binary64.u) * |b.val|) := by
      rw [abs_mul]
      exact mul_le_mul ha.val_le.2 hb.val_le.2 (abs_nonneg _) (by positivity)
    have A0 := abs_nonneg a.val
    have B0 := abs_nonneg b.val
    generalize binary64.u = u at *
    have V0 : 0 ≤ |a.val * b.val| := abs_nonneg _
    have hV := abs_mul a.val b.val
    generalize |a.val * b.val| = V at *
    have hle2 : |a.hi * b.hi| ≤ (1 + u) ^ 2 * V := by rw [hV]; linarith
    have c1 : (1 + u) ^ 2 ≤ 11 / 10 := by nlinarith
    have c2 : |a.hi * b.hi| ≤ 11 / 10 * V := hle2.trans (mul_le_mul_of_nonneg_right c1 V0)
    have := mul_le_mul_of_nonneg_left (mul_le_mul_of_nonneg_left c2 hu0.le) hu0.le
    have e : 11 * u ^ 2 * V = 10 * (u * (u * (11 / 10 * V))) := by ring
    rw [e]; linarith

end

end Nissa.Flt
