import Verif.Rational.PropsRoots
import Mathlib.Analysis.Calculus.Deriv.Mul
import Mathlib.Analysis.Calculus.Deriv.Add
import Mathlib.Analysis.Calculus.Deriv.Pow

/-! # C56: Newton's method finds the leftmost root of a polynomial with real roots -/

set_option linter.all false

namespace Nissa.Remez

theorem polyAt_hasDeriv (p : Nat → ℝ) (n : Nat) (hn : 0 < n) (x : ℝ) : HasDerivAt (polyAt n p) (poly_der x p n) x := by
  have h : HasDerivAt (fun x => ∑ i ∈ Finset.range (n + 1), p i * x ^ i) (∑ i ∈ Finset.range (n + 1), p i * (i * x ^ (i - 1))) x :=
    HasDerivAt.fun_sum fun i _ => (hasDerivAt_pow i x).const_mul (p i)
  have e : ∑ i ∈ Finset.range (n + 1), p i * ((i : ℝ) * x ^ (i - 1)) = poly_der x p n := by
    rw [poly_der_eq x p n hn, Finset.sum_range_succ']
    simp only [Nat.add_sub_cancel, Nat.cast_zero, zero_mul, mul_zero, add_zero]
    exact Finset.sum_congr rfl fun i _ => by ring
  rw [e] at h
  exact h

/-- the Newton step of a polynomial with real roots -/
theorem newton_step (p : Nat → ℝ) (n : Nat) (hn : 0 < n) (c : ℝ) (hc : c ≠ 0) (z : Fin n → ℝ) (hp : ∀ x, polyAt n p x = c * ∏ i, (x - z i)) (x : ℝ) (hx : ∀ i, x < z i) :
    poly_der x p n ≠ 0 ∧ poly_eval x p n / poly_der x p n = - (∑ i, (z i - x)⁻¹)⁻¹ := by
  have hd : HasDerivAt (polyAt n p) (c * ∑ i, (∏ j ∈ Finset.univ.erase i, (x - z j)) * 1) x := by
    have e : polyAt n p = fun x => c * ∏ i, (x - z i) := funext hp
    rw [e]
    have := HasDerivAt.fun_finset_prod (u := Finset.univ) (f := fun (i : Fin n) x => x - z i) (f' := fun _ => 1) (x := x) fun i _ => (hasDerivAt_id x).sub_const (z i)
    simpa [smul_eq_mul] using this.const_mul c
  have e := (polyAt_hasDeriv p n hn x).unique hd
  have hne : ∀ i, x - z i ≠ 0 := fun i => (sub_neg.2 (hx i)).ne
  have hP : ∏ i, (x - z i) ≠ 0 := Finset.prod_ne_zero_iff.2 fun i _ => hne i
  have h2 : ∑ i, (∏ j ∈ Finset.univ.erase i, (x - z j)) * 1 = (∏ i, (x - z i)) * ∑ i, (x - z i)⁻¹ := by
    rw [Finset.mul_sum]
    refine Finset.sum_congr rfl fun i _ => ?_
    rw [mul_one, ← Finset.mul_prod_erase Finset.univ _ (Finset.mem_univ i), mul_comm (x - z i), mul_assoc, mul_inv_cancel₀ (hne i), mul_one]
  have h3 : ∑ i, (x - z i)⁻¹ = - ∑ i, (z i - x)⁻¹ := by
    rw [← Finset.sum_neg_distrib]
    exact Finset.sum_congr rfl fun i _ => by rw [← neg_sub, inv_neg]
  have hS : 0 < ∑ i, (z i - x)⁻¹ := Finset.sum_pos (fun i _ => inv_pos.2 (sub_pos.2 (hx i))) ⟨⟨0, hn⟩, Finset.mem_univ _⟩
  rw [h2, h3] at e
  rw [e, poly_eval_eq, hp x]
  refine ⟨mul_ne_zero hc (mul_ne_zero hP (neg_ne_zero.2 hS.ne')), ?_⟩
  have := hS.ne'
  field_simp

/-- the step covers at least the part `1/n` of the distance from the first root, and never goes beyond it -/
theorem step_bounds (n : Nat) (z : Fin n → ℝ) (m : Fin n) (hm : ∀ i, z m ≤ z i) (x : ℝ) (hx : x < z m) :
    (z m - x) / n ≤ (∑ i, (z i - x)⁻¹)⁻¹ ∧ (∑ i, (z i - x)⁻¹)⁻¹ ≤ z m - x ∧ (2 ≤ n → (∑ i, (z i - x)⁻¹)⁻¹ < z m - x) := by
  have hd : 0 < z m - x := sub_pos.2 hx
  have hpos : ∀ i, 0 < (z i - x)⁻¹ := fun i => inv_pos.2 (sub_pos.2 (hx.trans_le (hm i)))
  have hn : 0 < n := lt_of_le_of_lt (Nat.zero_le _) m.2
  have hn' : (0 : ℝ) < n := by exact_mod_cast hn
  have hS : 0 < ∑ i, (z i - x)⁻¹ := Finset.sum_pos (fun i _ => hpos i) ⟨m, Finset.mem_univ _⟩
  have h1 : ∑ i, (z i - x)⁻¹ ≤ n * (z m - x)⁻¹ := by
    refine (Finset.sum_le_sum fun i _ => inv_anti₀ hd (sub_le_sub_right (hm i) x)).trans ?_
    simp
  have h2 : (z m - x)⁻¹ ≤ ∑ i, (z i - x)⁻¹ := Finset.single_le_sum (f := fun i => (z i - x)⁻¹) (fun i _ => (hpos i).le) (Finset.mem_univ m)
  refine ⟨?_, ?_, fun h => ?_⟩
  · rw [le_inv_comm₀ (div_pos hd hn') hS, inv_div]
    exact h1.trans (le_of_eq (div_eq_mul_inv _ _).symm)
  · rw [inv_le_comm₀ hS hd]; exact h2
  · rw [inv_lt_comm₀ hS hd]
    have : ∃ k : Fin n, k ≠ m := by
      rcases eq_or_ne m ⟨0, hn⟩ with h4 | h4
      · exact ⟨⟨1, h⟩, by rw [h4]; intro h; simpa using congrArg Fin.val h⟩
      · exact ⟨_, h4.symm⟩
    obtain ⟨k, hk⟩ := this
    exact Finset.single_lt_sum (f := fun i => (z i - x)⁻¹) hk (Finset.mem_univ _) (Finset.mem_univ _) (hpos k) fun i _ _ => (hpos i).le

theorem newtonLoop_finds (p : Nat → ℝ) (n : Nat) (hn : 2 ≤ n) (c : ℝ) (hc : c ≠ 0) (z : Fin n → ℝ) (hp : ∀ x, polyAt n p x = c * ∏ i, (x - z i)) (m : Fin n) (hm : ∀ i, z m ≤ z i) (acc : ℝ) (hacc : 0 < acc) (left : Nat) :
    ∀ x, x < z m → (1 - 1 / (n : ℝ)) ^ left * (z m - x) < acc → ∃ r, newtonLoop p n acc (left + 2) x = some r ∧ x < r ∧ r < z m ∧ z m - r ≤ n * acc := by
  have hn0 : (0 : ℝ) < n := by exact_mod_cast (by omega : 0 < n)
  have hn1 : 1 / (n : ℝ) ≤ 1 := by rw [div_le_one hn0]; exact_mod_cast (by omega : 1 ≤ n)
  -- a turn
  have turn : ∀ (left : Nat) (x : ℝ), x < z m → ∃ T, 0 < T ∧ (z m - x) / n ≤ T ∧ T < z m - x ∧
      newtonLoop p n acc (left + 2) x = if acc ≤ T then newtonLoop p n acc (left + 1) (x + T) else some (x + T) := by
    intro left x hx
    obtain ⟨a, b⟩ := newton_step p n (by omega) c hc z hp x fun i => hx.trans_le (hm i)
    obtain ⟨b1, -, b2⟩ := step_bounds n z m hm x hx
    have hT : 0 < (∑ i, (z i - x)⁻¹)⁻¹ := lt_of_lt_of_le (div_pos (sub_pos.2 hx) hn0) b1
    refine ⟨_, hT, b1, b2 hn, ?_⟩
    rw [newtonLoop, if_neg a, b, abs_neg, abs_of_pos hT, sub_neg_eq_add, if_neg (Nat.succ_ne_zero left)]
  induction left with
  | zero =>
    intro x hx h
    obtain ⟨T, h0, h1, h2, e⟩ := turn 0 x hx
    rw [pow_zero, one_mul] at h
    rw [e, if_neg (by linarith)]
    refine ⟨_, rfl, by linarith, by linarith, ?_⟩
    have : (z m - x) ≤ n * T := by rw [div_le_iff₀ hn0] at h1; linarith
    have h3 : T < acc := by linarith
    nlinarith
  | succ left ih =>
    intro x hx h
    obtain ⟨T, h0, h1, h2, e⟩ := turn (left + 1) x hx
    rw [e]
    split
    · have h4 : z m - (x + T) ≤ (1 - 1 / n) * (z m - x) := by
        have : (1 - 1 / (n : ℝ)) * (z m - x) = (z m - x) - (z m - x) / n := by ring
        rw [this]; linarith
      obtain ⟨r, e1, e2, e3, e4⟩ := ih (x + T) (by linarith) (by
        refine lt_of_le_of_lt (mul_le_mul_of_nonneg_left h4 (pow_nonneg (by linarith) _)) ?_
        rw [← mul_assoc, ← pow_succ]; exact h)
      exact ⟨r, e1, by linarith, e3, e4⟩
    · rename_i h3
      refine ⟨_, rfl, by linarith, by linarith, ?_⟩
      have : (z m - x) ≤ n * T := by rw [div_le_iff₀ hn0] at h1; linarith
      push Not at h3
      nlinarith

/-- **C56**: on a polynomial of degree at least two with real roots, all on the right of the starting point, Newton's method does not fail (unless the accuracy asked
is beyond what ten thousand halvings of the distance, in the sense of `1-1/n`, can give) and finds the leftmost root, from the left. -/
theorem C56_newton_finds (p : Nat → ℝ) (n : Nat) (hn : 2 ≤ n) (c : ℝ) (hc : c ≠ 0) (z : Fin n → ℝ) (hp : ∀ x, ∑ i ∈ Finset.range (n + 1), p i * x ^ i = c * ∏ i, (x - z i)) (m : Fin n) (hm : ∀ i, z m ≤ z i)
    (x1 x2 acc : ℝ) (hacc : 0 < acc) (hx : (x1 + x2) / 2 < z m) (hit : (1 - 1 / (n : ℝ)) ^ 9998 * (z m - (x1 + x2) / 2) < acc) :
    ∃ r, root_find_Newton p n x1 x2 acc = some r ∧ r < z m ∧ z m - r ≤ n * acc := by
  have e : (1 : ℝ) / 2 * (x1 + x2) = (x1 + x2) / 2 := by ring
  obtain ⟨r, h, -, h2, h3⟩ := newtonLoop_finds p n hn c hc z hp m hm acc hacc 9998 (1 / 2 * (x1 + x2)) (by rw [e]; exact hx) (by rw [e]; exact hit)
  exact ⟨r, h, h2, h3⟩

/-- the hypotheses are met with the constants of the code: roots -1 and -2, interval (-100000,1), accuracy 1e-20 -/
example : ∃ r, root_find_Newton (fun i => if i = 0 then 2 else if i = 1 then 3 else 1) 2 (-100000) 1 (1e-20 : ℝ) = some r ∧ r < -2 ∧ -2 - r ≤ 2 * (1e-20 : ℝ) := by
  have h := C56_newton_finds (fun i => if i = 0 then 2 else if i = 1 then 3 else 1) 2 le_rfl 1 one_ne_zero ![-2, -1] (fun x => by simp [Finset.sum_range_succ, Fin.prod_univ_two]; ring) 0
    (fun i => by fin_cases i <;> simp) (-100000) 1 1e-20 (by norm_num) (by norm_num) (by
      have : (1 - 1 / ((2 : ℕ) : ℝ)) ^ 9998 ≤ (1 - 1 / ((2 : ℕ) : ℝ)) ^ 100 := pow_le_pow_of_le_one (by norm_num) (by norm_num) (by norm_num)
      refine lt_of_le_of_lt (mul_le_mul_of_nonneg_right this (by norm_num)) ?_
      norm_num)
  simpa using h

end Nissa.Remez
