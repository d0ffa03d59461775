/-
Model of the integer helpers of /repo/src/routines/math_routines.cpp:23-95 and math_routines.hpp:31-33.
Ints are unbounded naturals (inputs are non negative in all usages).
-/
import Mathlib.Data.Nat.Factors
import Mathlib.Data.Nat.Bitwise
import Mathlib.Algebra.BigOperators.Group.Finset.Basic
import Mathlib.Algebra.BigOperators.Intervals
import Mathlib.Tactic.Ring
set_option linter.all false

namespace Nissa.Ints

/-- loop of `factorize`, math_routines.cpp:76-92. The exit for fatt>N is not in the code: it is never taken starting from 2 (the product of
the list would not be N, see C26_factorize) and it makes the recursion well founded. -/
def factorizeGo (N fatt : Nat) : List Nat :=
  if h : 1 < N ∧ 2 ≤ fatt ∧ fatt ≤ N then
    let div := N / fatt
    let res := N - div * fatt
    if res ≠ 0 then factorizeGo N (fatt + 1)
    else fatt :: factorizeGo div fatt
  else []
termination_by (N, N + 1 - fatt)
decreasing_by
  · apply Prod.Lex.right; omega
  · apply Prod.Lex.left; exact Nat.div_lt_self (by omega) (by omega)

/-- factorize, math_routines.cpp:72-95 -/
def factorize (N : Nat) : List Nat := factorizeGo N 2

/-- `in & (1<<i)` -/
def bitSet (a i : Nat) : Bool := a.testBit i

/-- bitrev, math_routines.cpp:24-31 -/
def bitrev (a l2n : Nat) : Nat := (List.range l2n).foldl (fun out i => if bitSet a i then out + 2 ^ (l2n - i - 1) else out) 0

/-- find_max_pow2, math_routines.cpp:34-44, run for at most `fuel` turns; none = still looping -/
def findMaxPow2 : Nat → Nat → Nat → Option Nat
  | 0, _, _ => none
  | fuel + 1, a, nl => if a % 2 = 0 then findMaxPow2 fuel (a / 2) (nl + 1) else some nl

/-- loop of log2N, math_routines.cpp:47-55, at most `fuel` turns -/
def log2NGo : Nat → Nat → Nat → Option Nat
  | 0, _, _ => none
  | fuel + 1, N, k => if 2 * 2 ^ (k + 1) < N then log2NGo fuel N (k + 1) else some (k + 1)

/-- log2N, math_routines.cpp:47-55 -/
def log2N (fuel N : Nat) : Option Nat := log2NGo fuel N 0

/-- get_bit, math_routines.hpp:32-33 -/
def getBit (i ibit : Nat) : Bool := (i >>> ibit) &&& 1 == 1

theorem factorizeGo_spec (N fatt : Nat) (hN : 0 < N) (h2 : 2 ≤ fatt) (hp : ∀ p, p.Prime → p ∣ N → fatt ≤ p) :
    (factorizeGo N fatt).prod = N ∧ (∀ p ∈ factorizeGo N fatt, p.Prime ∧ fatt ≤ p) ∧ (factorizeGo N fatt).Pairwise (· ≤ ·) := by
  induction N, fatt using factorizeGo.induct with
  | case1 N fatt h div res hres ih =>
    rw [factorizeGo]
    rw [dif_pos h]
    have hnd : ¬ fatt ∣ N := by
      intro hd
      exact hres (by show N - N / fatt * fatt = 0; rw [Nat.div_mul_cancel hd]; omega)
    have hres' : N - N / fatt * fatt ≠ 0 := hres
    simp only [hres', ne_eq, not_false_eq_true, if_true]
    obtain ⟨a, b, c⟩ := ih hN (by omega) (fun p pp pd => by
      have := hp p pp pd
      rcases Nat.lt_or_ge fatt p with h | h
      · exact h
      · have : p = fatt := by omega
        subst this; exact absurd pd hnd)
    exact ⟨a, fun p hpm => ⟨(b p hpm).1, by have := (b p hpm).2; omega⟩, c⟩
  | case2 N fatt h div res hres ih =>
    rw [factorizeGo]
    rw [dif_pos h]
    have hres' : N - N / fatt * fatt = 0 := not_not.1 hres
    have hd : fatt ∣ N := by
      have h1 := Nat.div_mul_le_self N fatt
      exact ⟨N / fatt, by rw [Nat.mul_comm]; omega⟩
    simp only [hres', ne_eq, not_true_eq_false, if_false]
    have hdp : 0 < N / fatt := Nat.div_pos h.2.2 (by omega)
    obtain ⟨a, b, c⟩ := ih hdp h2 (fun p pp pd => hp p pp (Nat.dvd_trans pd (Nat.div_dvd_of_dvd hd)))
    have hprime : fatt.Prime := by
      have hm := Nat.minFac_prime (n := fatt) (by omega)
      have := hp _ hm (Nat.dvd_trans (Nat.minFac_dvd fatt) hd)
      have h3 := Nat.minFac_le (n := fatt) (by omega)
      have : fatt.minFac = fatt := by omega
      rw [← this]; exact hm
    refine ⟨?_, ?_, ?_⟩
    · rw [List.prod_cons, a]; exact Nat.mul_div_cancel' hd
    · intro p hpm
      rcases List.mem_cons.1 hpm with rfl | hpm
      · exact ⟨hprime, Nat.le_refl _⟩
      · exact b p hpm
    · exact List.pairwise_cons.2 ⟨fun p hpm => (b p hpm).2, c⟩
  | case3 N fatt h =>
    rw [factorizeGo, dif_neg h]
    have : N = 1 := by
      by_contra hne
      have hm := Nat.minFac_prime hne
      have h1 := hp _ hm (Nat.minFac_dvd N)
      have h3 := Nat.minFac_le hN
      exact h ⟨by omega, h2, by omega⟩
    subst this
    simp

/-! ### C26 -/

/-- C26: factorize returns prime numbers, in non decreasing order, whose product is the input -/
theorem C26_factorize (N : Nat) (hN : 0 < N) :
    (factorize N).prod = N ∧ (∀ p ∈ factorize N, p.Prime) ∧ (factorize N).Pairwise (· ≤ ·) := by
  obtain ⟨a, b, c⟩ := factorizeGo_spec N 2 hN (Nat.le_refl _) (fun p pp _ => pp.two_le)
  exact ⟨a, fun p hp => (b p hp).1, c⟩

/-- ... hence the canonical prime factorisation -/
theorem C26_factorize_unique (N : Nat) (hN : 0 < N) : (factorize N).Perm N.primeFactorsList :=
  Nat.primeFactorsList_unique (C26_factorize N hN).1 (C26_factorize N hN).2.1

example : factorize 360 = [2, 2, 2, 3, 3, 5] := by simp [factorize, factorizeGo]

theorem foldl_bits (a l2n : Nat) (g : Nat → Nat) (m : Nat) :
    (List.range m).foldl (fun out i => if bitSet a i then out + 2 ^ (g i) else out) 0 = ∑ i ∈ Finset.range m, if bitSet a i then 2 ^ (g i) else 0 := by
  induction m with
  | zero => rfl
  | succ m ih =>
    rw [List.range_succ, List.foldl_append, ih, Finset.sum_range_succ]
    simp only [List.foldl_cons, List.foldl_nil]
    split <;> simp

theorem sum_bits_testBit (b : Nat → Bool) (n : Nat) :
    (∑ i ∈ Finset.range n, if b i then 2 ^ i else 0) < 2 ^ n ∧ ∀ j, (∑ i ∈ Finset.range n, if b i then 2 ^ i else 0).testBit j = (decide (j < n) && b j) := by
  induction n with
  | zero => simp
  | succ n ih =>
    obtain ⟨h1, h2⟩ := ih
    rw [Finset.sum_range_succ]
    cases hb : b n with
    | false =>
      simp only [Bool.false_eq_true, if_false, Nat.add_zero]
      refine ⟨by rw [Nat.pow_succ]; omega, fun j => ?_⟩
      rw [h2]
      by_cases hj : j = n
      · subst hj; simp [hb]
      · have : (j < n + 1) ↔ j < n := by omega
        simp [this]
    | true =>
      simp only [if_true]
      refine ⟨by rw [Nat.pow_succ]; omega, fun j => ?_⟩
      rw [Nat.add_comm]
      by_cases hj : j = n
      · subst hj
        rw [Nat.testBit_two_pow_add_eq, h2]; simp [hb]
      · rcases Nat.lt_or_ge j n with hlt | hge
        · rw [Nat.testBit_two_pow_add_gt hlt, h2]
          have : j < n + 1 := by omega
          simp [hlt, this]
        · have : ¬ j < n + 1 := by omega
          have hlt : 2 ^ n + (∑ i ∈ Finset.range n, if b i then 2 ^ i else 0) < 2 ^ j := by
            calc _ < 2 ^ n + 2 ^ n := by omega
              _ = 2 ^ (n + 1) := by rw [Nat.pow_succ]; omega
              _ ≤ 2 ^ j := Nat.pow_le_pow_right (by omega) (by omega)
          rw [Nat.testBit_lt_two_pow hlt]; simp [this]

/-- C26: bit reversal exchanges bit j with bit l2n-1-j and clears the others -/
theorem C26_bitrev (a l2n j : Nat) : (bitrev a l2n).testBit j = (decide (j < l2n) && a.testBit (l2n - 1 - j)) := by
  unfold bitrev
  rw [foldl_bits a l2n (fun i => l2n - i - 1) l2n]
  rw [← Finset.sum_range_reflect]
  have : ∀ i ∈ Finset.range l2n, (if bitSet a (l2n - 1 - i) then 2 ^ (l2n - (l2n - 1 - i) - 1) else 0) = if bitSet a (l2n - 1 - i) then 2 ^ i else 0 := by
    intro i hi
    rw [Finset.mem_range] at hi
    rw [show l2n - (l2n - 1 - i) - 1 = i by omega]
  rw [Finset.sum_congr rfl this, (sum_bits_testBit (fun i => bitSet a (l2n - 1 - i)) l2n).2]
  rfl

/-- C26: ... hence it is an involution on the words of l2n bits, which it maps in themselves -/
theorem C26_bitrev_involution (a l2n : Nat) (h : a < 2 ^ l2n) : bitrev (bitrev a l2n) l2n = a ∧ bitrev a l2n < 2 ^ l2n := by
  constructor
  · apply Nat.eq_of_testBit_eq
    intro j
    rw [C26_bitrev, C26_bitrev]
    by_cases hj : j < l2n
    · have h1 : l2n - 1 - j < l2n := by omega
      rw [show l2n - 1 - (l2n - 1 - j) = j by omega]
      simp [hj, h1]
    · have : a.testBit j = false := Nat.testBit_lt_two_pow (Nat.lt_of_lt_of_le h (Nat.pow_le_pow_right (by omega) (by omega)))
      simp [hj, this]
  · refine Nat.lt_pow_two_of_testBit _ (fun i hi => ?_)
    rw [C26_bitrev]; simp [show ¬ i < l2n by omega]

theorem findMaxPow2_spec (fuel a nl : Nat) (h0 : 0 < a) (hf : a ≤ fuel) : ∃ r, findMaxPow2 fuel a nl = some (nl + r) ∧ 2 ^ r ∣ a ∧ ¬ 2 ^ (r + 1) ∣ a := by
  induction fuel generalizing a nl with
  | zero => omega
  | succ fuel ih =>
    unfold findMaxPow2
    split
    · rename_i he
      obtain ⟨r, h1, h2, h3⟩ := ih (a / 2) (nl + 1) (by omega) (by omega)
      refine ⟨r + 1, by rw [h1]; congr 1; omega, ?_, ?_⟩
      · have : a = 2 * (a / 2) := by omega
        rw [this, Nat.pow_succ, Nat.mul_comm]; exact Nat.mul_dvd_mul_left 2 h2
      · intro hd
        apply h3
        have e : a = 2 * (a / 2) := by omega
        rw [e, Nat.pow_succ, Nat.mul_comm] at hd
        exact Nat.dvd_of_mul_dvd_mul_left (by omega) hd
    · rename_i he
      exact ⟨0, rfl, by simp, by simpa using fun h => he (Nat.mod_eq_zero_of_dvd h)⟩

/-- C26: find_max_pow2 of a positive number ends and returns the exponent of the largest power of two dividing it -/
theorem C26_find_max_pow2 (a : Nat) (h : 0 < a) : ∃ r, (∀ fuel, a ≤ fuel → findMaxPow2 fuel a 0 = some r) ∧ 2 ^ r ∣ a ∧ ¬ 2 ^ (r + 1) ∣ a := by
  obtain ⟨r, h1, h2, h3⟩ := findMaxPow2_spec a a 0 h (Nat.le_refl _)
  refine ⟨r, fun fuel hf => ?_, h2, h3⟩
  obtain ⟨r', h1', h2', h3'⟩ := findMaxPow2_spec fuel a 0 h hf
  have hr : r' = r := by
    rcases Nat.lt_trichotomy r' r with h | h | h
    · exact absurd (Nat.dvd_trans (Nat.pow_dvd_pow 2 (by omega : r' + 1 ≤ r)) h2) h3'
    · exact h
    · exact absurd (Nat.dvd_trans (Nat.pow_dvd_pow 2 (by omega : r + 1 ≤ r')) h2') h3
  rw [h1', hr]; simp

/-- C26 fails for 0: find_max_pow2 never returns -/
theorem C26_find_max_pow2_zero_violated (fuel nl : Nat) : findMaxPow2 fuel 0 nl = none := by
  induction fuel generalizing nl with
  | zero => rfl
  | succ fuel ih => unfold findMaxPow2; simp [ih]

theorem log2NGo_spec (N : Nat) : ∀ fuel k, N ≤ fuel + k → ∃ r, log2NGo (fuel + 1) N k = some r ∧ k + 1 ≤ r ∧ N ≤ 2 ^ (r + 1) ∧ ∀ r', k + 1 ≤ r' → N ≤ 2 ^ (r' + 1) → r ≤ r' := by
  intro fuel
  induction fuel with
  | zero =>
    intro k hk
    refine ⟨k + 1, ?_, by omega, ?_, fun r' h _ => h⟩
    · unfold log2NGo
      have : k + 1 < 2 ^ (k + 1) := Nat.lt_two_pow_self
      rw [if_neg (by omega)]
    · have : k + 1 + 1 < 2 ^ (k + 1 + 1) := Nat.lt_two_pow_self
      omega
  | succ fuel ih =>
    intro k hk
    unfold log2NGo
    split
    · rename_i hlt
      obtain ⟨r, h1, h2, h3, h4⟩ := ih (k + 1) (by omega)
      refine ⟨r, h1, by omega, h3, fun r' hr' hN => ?_⟩
      refine h4 r' ?_ hN
      rcases Nat.lt_or_ge (k + 1) r' with h | h
      · exact h
      · have : r' = k + 1 := by omega
        subst this
        rw [Nat.pow_succ] at hN; omega
    · rename_i hge
      refine ⟨k + 1, rfl, by omega, ?_, fun r' h _ => h⟩
      rw [Nat.pow_succ]; omega

/-- C26: what log2N actually returns: the smallest k, at least 1, such that N ≤ 2^(k+1)... -/
theorem C26_log2N_value (N : Nat) : ∃ r, log2N (N + 1) N = some r ∧ 1 ≤ r ∧ N ≤ 2 ^ (r + 1) ∧ ∀ r', 1 ≤ r' → N ≤ 2 ^ (r' + 1) → r ≤ r' := by
  obtain ⟨r, h1, h2, h3, h4⟩ := log2NGo_spec N N 0 (by omega)
  exact ⟨r, h1, by omega, h3, fun r' h => h4 r' (by omega)⟩

/-- ... which for every power of two from 4 on is one less than the logarithm: the documented result ("return the log2 of N") is wrong -/
theorem C26_log2N_violated (m : Nat) (hm : 2 ≤ m) : log2N (2 ^ m + 1) (2 ^ m) = some (m - 1) := by
  obtain ⟨r, h1, h2, h3, h4⟩ := C26_log2N_value (2 ^ m)
  have a : m ≤ r + 1 := (Nat.pow_le_pow_iff_right (by omega)).1 h3
  have b := h4 (m - 1) (by omega) (by rw [show m - 1 + 1 = m by omega])
  rw [h1]; congr 1; omega

/-- C26: get_bit reads the bit -/
theorem C26_get_bit (i ibit : Nat) : getBit i ibit = i.testBit ibit := by
  unfold getBit
  rw [Nat.testBit, Nat.and_comm]
  rcases Nat.mod_two_eq_zero_or_one (i >>> ibit) with h | h <;> simp [h]

end Nissa.Ints
