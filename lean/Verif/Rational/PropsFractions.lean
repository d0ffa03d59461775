import Verif.Rational.PropsRoots

/-!
# Partial fractions (C56)
-/

set_option linter.all false

namespace Nissa.Remez

variable {K : Type} [Field K] [LinearOrder K] [IsStrictOrderedRing K]

theorem mulRoot_spec (n : Nat) (r : K) (p : Nat → K) (i : Nat) (hi : i < n) :
    mulRoot n r p i = p i * (-r) + if 0 < i then p (i - 1) else 0 := by
  have main := down_inv (fun m (q : Nat → K) => (∀ j < m, q j = p j) ∧
      ∀ j, m ≤ j → j < n → q j = p j * (-r) + if 0 < j then p (j - 1) else 0)
    (fun i p =>
      let p := put p i (p i * (-r))
      if 0 < i then put p i (p i + p (i - 1)) else p) p n
    ⟨fun _ _ => rfl, fun j h1 h2 => by omega⟩ ?_
  · exact main.2 i (by omega) hi
  · rintro m hm q ⟨h1, h2⟩
    by_cases a : 0 < m
    · simp only [if_pos a]
      refine ⟨fun j hj => ?_, fun j hj hjn => ?_⟩
      · unfold put
        rw [if_neg (by omega), if_neg (by omega)]
        exact h1 j (by omega)
      · by_cases b : j = m
        · subst b
          unfold put
          rw [if_pos rfl, if_pos rfl, if_neg (by omega), if_pos a, h1 j (by omega),
            h1 (j - 1) (by omega)]
        · unfold put
          rw [if_neg b, if_neg b]
          exact h2 j (by omega) hjn
    · simp only [if_neg a]
      refine ⟨fun j hj => by omega, fun j hj hjn => ?_⟩
      by_cases b : j = m
      · subst b
        unfold put
        rw [if_pos rfl, if_neg a, h1 j (by omega), add_zero]
      · unfold put
        rw [if_neg b]
        exact h2 j (by omega) hjn

open Polynomial in
/-- `∏_{j<n} (X - r j)`. -/
noncomputable def monicOf (n : Nat) (r : Nat → K) : K[X] := ∏ j ∈ Finset.range n, (X - C (r j))

open Polynomial in
theorem expandRoots_spec (n : Nat) (r : Nat → K) (i : Nat) (hi : i < n) :
    expandRoots n r i = (monicOf n r).coeff i := by
  have main := up_inv (fun m (p : Nat → K) => ∀ i < n, p i = (monicOf m r).coeff i)
    (fun j p => mulRoot n (r j) p) (fun i => if i = 0 then 1 else 0) n ?_ ?_
  · exact main i hi
  · intro i _
    simp [monicOf, coeff_one]
  · intro m hm p hp i hi
    beta_reduce
    rw [mulRoot_spec n (r m) p i hi]
    unfold monicOf
    rw [Finset.prod_range_succ]
    change _ = (monicOf m r * (X - C (r m))).coeff i
    rw [mul_sub, coeff_sub, coeff_mul_C, hp i hi]
    cases i with
    | zero => simp
    | succ i =>
      rw [if_pos (by omega), Nat.add_sub_cancel, hp i (by omega), coeff_mul_X]
      ring

open Polynomial in
theorem monicOf_eval (n : Nat) (r : Nat → K) (x : K) :
    (monicOf n r).eval x = ∏ j ∈ Finset.range n, (x - r j) := by
  unfold monicOf
  rw [eval_prod]
  simp

open Polynomial in
theorem monicOf_monic (n : Nat) (r : Nat → K) :
    (monicOf n r).Monic ∧ (monicOf n r).natDegree = n := by
  unfold monicOf
  refine ⟨monic_prod_of_monic _ _ fun j _ => monic_X_sub_C _, ?_⟩
  rw [natDegree_prod_of_monic _ _ fun j _ => monic_X_sub_C _]
  simp

open Polynomial in
theorem monicOf_sub_degree (n : Nat) (r p : Nat → K) :
    (monicOf n r - monicOf n p).degree < n := by
  obtain ⟨a1, a2⟩ := monicOf_monic n r
  obtain ⟨b1, b2⟩ := monicOf_monic n p
  rw [degree_lt_iff_coeff_zero]
  intro m hm
  rw [coeff_sub]
  rcases Nat.eq_or_lt_of_le hm with rfl | h
  · have e1 : (monicOf n r).coeff n = 1 := by
      have := a1.coeff_natDegree; rwa [a2] at this
    have e2 : (monicOf n p).coeff n = 1 := by
      have := b1.coeff_natDegree; rwa [b2] at this
    rw [e1, e2, sub_self]
  · rw [coeff_eq_zero_of_natDegree_lt (by rw [a2]; exact h),
      coeff_eq_zero_of_natDegree_lt (by rw [b2]; exact h), sub_self]

theorem down_div (n : Nat) (g : Nat → K) (c : Nat → Prop) [DecidablePred c] (r : K) :
    down n (fun j r => if c j then r / g j else r) r =
      r * ∏ j ∈ Finset.range n, if c j then (g j)⁻¹ else 1 := by
  induction n generalizing r with
  | zero => simp [down]
  | succ n ih =>
    rw [down, ih, Finset.prod_range_succ]
    split_ifs <;> ring

open Polynomial in
theorem residue_spec (n : Nat) (roots poles : Nat → K) (cons : K) (i : Nat) (hi : i < n) :
    residue n (fun i => expandRoots n roots i - expandRoots n poles i) poles cons i =
      cons * (Lagrange.nodalWeight (Finset.range n) poles i *
        (monicOf n roots - monicOf n poles).eval (poles i)) := by
  unfold residue
  have h1 : down n (fun j r => r * poles i + (expandRoots n roots j - expandRoots n poles j)) 0 =
      (monicOf n roots - monicOf n poles).eval (poles i) := by
    have e : (fun j (r : K) => r * poles i + (expandRoots n roots j - expandRoots n poles j)) =
        fun j r => poles i * r + (expandRoots n roots j - expandRoots n poles j) := by
      funext j r; rw [mul_comm]
    rw [e, down_horner n (fun j => expandRoots n roots j - expandRoots n poles j), zero_mul, zero_add]
    have hdeg := monicOf_sub_degree n roots poles
    have hlt : (monicOf n roots - monicOf n poles).natDegree < n ∨
        monicOf n roots - monicOf n poles = 0 := by
      by_cases h0 : monicOf n roots - monicOf n poles = 0
      · exact Or.inr h0
      · exact Or.inl ((natDegree_lt_iff_degree_lt h0).2 hdeg)
    have hco : ∀ j ∈ Finset.range n, (expandRoots n roots j - expandRoots n poles j) * poles i ^ j =
        (monicOf n roots - monicOf n poles).coeff j * poles i ^ j := fun j hj => by
      have := Finset.mem_range.1 hj
      rw [expandRoots_spec n roots j this, expandRoots_spec n poles j this, coeff_sub]
    rw [Finset.sum_congr rfl hco]
    rcases hlt with h | h
    · rw [eval_eq_sum_range' h]
    · rw [h]; simp
  simp only
  rw [h1]
  rw [down_div n (fun j => poles i - poles j) (fun j => i ≠ j)]
  have h2 : ∏ j ∈ Finset.range n, (if i ≠ j then (poles i - poles j)⁻¹ else 1) =
      Lagrange.nodalWeight (Finset.range n) poles i := by
    unfold Lagrange.nodalWeight
    rw [← Finset.prod_filter]
    refine Finset.prod_congr ?_ fun _ _ => rfl
    ext j
    simp only [Finset.mem_filter, Finset.mem_range, Finset.mem_erase]
    constructor
    · rintro ⟨a, b⟩; exact ⟨fun h => b h.symm, a⟩
    · rintro ⟨a, b⟩; exact ⟨b, fun h => a h.symm⟩
  rw [h2]
  ring

/-! ### Ordering of the poles -/

/-- `s'` is obtained from `s` by moving its pairs around. -/
def Rearranged (n : Nat) (s s' : (Nat → K) × (Nat → K)) : Prop :=
  ∃ e : Nat → Nat, PermOn n e ∧ ∀ i < n, s'.1 i = s.1 (e i) ∧ s'.2 i = s.2 (e i)

theorem smallest_spec (n : Nat) (p : Nat → K) (j : Nat) (hj : j < n) :
    j ≤ smallest n p j ∧ smallest n p j < n ∧ ∀ i, j ≤ i → i < n → p (smallest n p j) ≤ p i := by
  have main := up_inv (fun m (small : Nat) => j ≤ small ∧ small < n ∧
      ∀ i, j ≤ i → i < j + 1 + m → p small ≤ p i)
    (fun t small => if p (j + 1 + t) < p small then j + 1 + t else small) j (n - (j + 1)) ?_ ?_
  · obtain ⟨h1, h2, h3⟩ := main
    exact ⟨h1, h2, fun i a b => h3 i a (by omega)⟩
  · refine ⟨le_rfl, hj, fun i a b => ?_⟩
    have : i = j := by omega
    rw [this]
  · rintro m hm small ⟨h1, h2, h3⟩
    by_cases a : p (j + 1 + m) < p small
    · rw [if_pos a]
      refine ⟨by omega, by omega, fun i b c => ?_⟩
      by_cases d : i = j + 1 + m
      · rw [d]
      · exact a.le.trans (h3 i b (by omega))
    · rw [if_neg a]
      refine ⟨h1, h2, fun i b c => ?_⟩
      by_cases d : i = j + 1 + m
      · rw [d]; exact not_lt.1 a
      · exact h3 i b (by omega)

theorem sortPoles_spec (n : Nat) (s : (Nat → K) × (Nat → K)) :
    Rearranged n s (sortPoles n s) ∧
      ∀ i j, i ≤ j → j < n → (sortPoles n s).2 i ≤ (sortPoles n s).2 j := by
  have main := up_inv (fun m (t : (Nat → K) × (Nat → K)) => Rearranged n s t ∧
      ∀ i j, i < m → i ≤ j → j < n → t.2 i ≤ t.2 j)
    (fun j s => if smallest n s.2 j ≠ j then
      (swapK s.1 (smallest n s.2 j) j, swapK s.2 (smallest n s.2 j) j) else s) s n ?_ ?_
  · exact ⟨main.1, fun i j h1 h2 => main.2 i j (by omega) h1 h2⟩
  · exact ⟨⟨fun i => i, ⟨fun i hi => hi, fun i _ j _ h => h⟩, fun i _ => ⟨rfl, rfl⟩⟩,
      fun i j h => by omega⟩
  · rintro m hm t ⟨⟨e, he, hte⟩, h2⟩
    obtain ⟨k1, k2, k3⟩ := smallest_spec n t.2 m hm
    set k := smallest n t.2 m with hk
    -- the swap, whether or not it is performed
    have hsw : (if k ≠ m then (swapK t.1 k m, swapK t.2 k m) else t) =
        (swapK t.1 k m, swapK t.2 k m) := by
      by_cases a : k = m
      · rw [if_neg (not_not.2 a)]
        have : ∀ v : Nat → K, swapK v k m = v := fun v => by
          funext l
          unfold swapK
          rw [a]
          split_ifs with b
          · rw [b]
          · rfl
        rw [this, this]
      · rw [if_pos a]
    rw [hsw]
    have hmap : ∀ v : Nat → K, ∀ i, swapK v k m i = v (swapAt (fun i => i) k m i) := fun v i => by
      unfold swapK swapAt
      split_ifs <;> rfl
    have hid : PermOn n (fun i => i) := ⟨fun i hi => hi, fun i _ j _ h => h⟩
    have hs := swapAt_perm hid k2 hm
    refine ⟨⟨fun i => e (swapAt (fun i => i) k m i), ⟨fun i hi => he.1 _ (hs.1 i hi),
      fun i hi j hj h => hs.2 i hi j hj (he.2 _ (hs.1 i hi) _ (hs.1 j hj) h)⟩, fun i hi => ?_⟩, ?_⟩
    · simp only
      rw [hmap, hmap]
      exact hte _ (hs.1 i hi)
    · intro i j hi hij hj
      simp only
      by_cases a : i < m
      · have e1 : swapK t.2 k m i = t.2 i := by
          unfold swapK; rw [if_neg (by omega), if_neg (by omega)]
        rw [e1]
        unfold swapK
        split_ifs
        · exact h2 i m a (by omega) hm
        · exact h2 i k a (by omega) k2
        · exact h2 i j a hij hj
      · have : i = m := by omega
        subst this
        have e1 : swapK t.2 k i i = t.2 k := by
          unfold swapK
          split_ifs with b
          · exact congrArg _ b
          · rfl
          · exact absurd rfl ‹¬ i = i›
        rw [e1]
        unfold swapK
        split_ifs
        · exact k3 i le_rfl hm
        · exact le_rfl
        · exact k3 j hij hj

theorem Rearranged.sum {n : Nat} {s s' : (Nat → K) × (Nat → K)} (h : Rearranged n s s')
    (g : K → K → K) :
    ∑ i ∈ Finset.range n, g (s'.1 i) (s'.2 i) = ∑ i ∈ Finset.range n, g (s.1 i) (s.2 i) := by
  obtain ⟨e, he, hs⟩ := h
  refine Finset.sum_bij (fun i _ => e i) ?_ ?_ ?_ ?_
  · intro i hi; exact Finset.mem_range.2 (he.1 i (Finset.mem_range.1 hi))
  · intro i hi j hj h; exact he.2 i (Finset.mem_range.1 hi) j (Finset.mem_range.1 hj) h
  · intro j hj
    obtain ⟨i, hi, rfl⟩ := he.surj j (Finset.mem_range.1 hj)
    exact ⟨i, Finset.mem_range.2 hi, rfl⟩
  · intro i hi
    obtain ⟨h1, h2⟩ := hs i (Finset.mem_range.1 hi)
    rw [h1, h2]

/-- **C56**: partial fractions.  For distinct poles the expansion returned,
`cons + ∑ weight/(x+pole)`, is `cons·∏(x-root)/∏(x-pole)` away from the poles; the poles returned are
the opposite of the given ones in increasing order. -/
theorem C56_fraction_expansion (n : Nat) (roots poles : Nat → K) (cons : K)
    (hdist : ∀ i < n, ∀ j < n, poles i = poles j → i = j) :
    (∀ x, (∀ i < n, x ≠ poles i) →
      cons + ∑ i ∈ Finset.range n, (get_partial_fraction_expansion n roots poles cons).1 i /
          (x + (get_partial_fraction_expansion n roots poles cons).2 i) =
        cons * (∏ i ∈ Finset.range n, (x - roots i)) / ∏ i ∈ Finset.range n, (x - poles i)) ∧
      (∀ i j, i ≤ j → j < n → (get_partial_fraction_expansion n roots poles cons).2 i ≤
        (get_partial_fraction_expansion n roots poles cons).2 j) ∧
      ∃ e : Nat → Nat, PermOn n e ∧ ∀ i < n,
        (get_partial_fraction_expansion n roots poles cons).2 i = -poles (e i) := by
  set s := ((fun i => residue n (fun i => expandRoots n roots i - expandRoots n poles i) poles cons i,
    fun i => -poles i) : (Nat → K) × (Nat → K)) with hs
  have hdef : get_partial_fraction_expansion n roots poles cons = sortPoles n s := rfl
  obtain ⟨hr, hsort⟩ := sortPoles_spec n s
  rw [hdef]
  refine ⟨fun x hx => ?_, hsort, ?_⟩
  · rw [hr.sum (fun w p => w / (x + p))]
    have hinj : Set.InjOn poles (Finset.range n : Set Nat) := by
      intro i hi j hj h
      exact hdist i (by simpa using hi) j (by simpa using hj) h
    have hN := Lagrange.eq_interpolate hinj
      (f := monicOf n roots - monicOf n poles) (by
        rw [Finset.card_range]; exact monicOf_sub_degree n roots poles)
    have hE := Lagrange.eval_interpolate_not_at_node (s := Finset.range n) (v := poles)
      (fun i => (monicOf n roots - monicOf n poles).eval (poles i)) (x := x)
      (fun i hi => hx i (Finset.mem_range.1 hi))
    rw [← hN, Lagrange.eval_nodal] at hE
    rw [Polynomial.eval_sub, monicOf_eval, monicOf_eval] at hE
    have hne : ∏ i ∈ Finset.range n, (x - poles i) ≠ 0 :=
      Finset.prod_ne_zero_iff.2 fun i hi => sub_ne_zero.2 (hx i (Finset.mem_range.1 hi))
    have hsum : ∑ i ∈ Finset.range n, s.1 i / (x + s.2 i) =
        cons * ∑ i ∈ Finset.range n, Lagrange.nodalWeight (Finset.range n) poles i *
          (x - poles i)⁻¹ * (monicOf n roots - monicOf n poles).eval (poles i) := by
      rw [Finset.mul_sum]
      refine Finset.sum_congr rfl fun i hi => ?_
      rw [hs]
      simp only
      rw [residue_spec n roots poles cons i (Finset.mem_range.1 hi), div_eq_mul_inv,
        ← sub_eq_add_neg]
      ring
    rw [hsum]
    rw [eq_div_iff hne]
    linear_combination (-cons) * hE
  · obtain ⟨e, he, h⟩ := hr
    exact ⟨e, he, fun i hi => (h i hi).2⟩

/-- Two poles, out of order: `2 (x+3)(x+5)/((x+1)(x+2))`, that is `2 + 16/(x+1) - 6/(x+2)`. -/
example : (get_partial_fraction_expansion (K := Rat) 2 (fun i => if i = 0 then -3 else -5)
      (fun i => if i = 0 then -2 else -1) 2).1 0 = 16 ∧
    (get_partial_fraction_expansion (K := Rat) 2 (fun i => if i = 0 then -3 else -5)
      (fun i => if i = 0 then -2 else -1) 2).1 1 = -6 ∧
    (get_partial_fraction_expansion (K := Rat) 2 (fun i => if i = 0 then -3 else -5)
      (fun i => if i = 0 then -2 else -1) 2).2 0 = 1 := by decide +kernel

end Nissa.Remez
