import Verif.Rational.Remez
import Mathlib.Algebra.BigOperators.Intervals
import Mathlib.LinearAlgebra.Matrix.NonsingularInverse
import Mathlib.LinearAlgebra.Matrix.ToLinearEquiv
import Mathlib.Tactic.Ring
import Mathlib.Tactic.Linarith
import Mathlib.Tactic.FieldSimp

/-!
# The linear solver of the rational-approximation finder (C56)
-/

set_option linter.all false

namespace Nissa.Remez

theorem up_inv {S : Type} (P : Nat → S → Prop) (f : Nat → S → S) (s : S) (n : Nat)
    (h0 : P 0 s) (hs : ∀ i < n, ∀ s, P i s → P (i + 1) (f i s)) : P n (up n f s) := by
  induction n with
  | zero => exact h0
  | succ n ih =>
    exact hs n (by omega) _ (ih fun i hi => hs i (by omega))

theorem down_inv {S : Type} (P : Nat → S → Prop) (f : Nat → S → S) (s : S) (n : Nat)
    (h0 : P n s) (hs : ∀ i < n, ∀ s, P (i + 1) s → P i (f i s)) : P 0 (down n f s) := by
  induction n generalizing s with
  | zero => exact h0
  | succ n ih =>
    exact ih (f n s) (hs n (by omega) s h0) fun i hi => hs i (by omega)

variable {K : Type} [Field K] [LinearOrder K] [IsStrictOrderedRing K]

/-! ### Row norms -/

theorem rowNorm_spec (n : Nat) (A : Nat → Nat → K) (i : Nat) :
    0 ≤ rowNorm n A i ∧ ∀ j < n, |A i j| ≤ rowNorm n A i := by
  unfold rowNorm
  refine up_inv (fun m r => 0 ≤ r ∧ ∀ j < m, |A i j| ≤ r) _ _ n ⟨le_rfl, by simp⟩ ?_
  rintro m hm r ⟨h0, h⟩
  by_cases hr : r < |A i m|
  · rw [if_pos hr]
    refine ⟨abs_nonneg _, fun j hj => ?_⟩
    rcases Nat.lt_succ_iff_lt_or_eq.1 hj with h' | rfl
    · exact (h j h').trans hr.le
    · exact le_rfl
  · rw [if_neg hr]
    refine ⟨h0, fun j hj => ?_⟩
    rcases Nat.lt_succ_iff_lt_or_eq.1 hj with h' | rfl
    · exact h j h'
    · exact not_lt.1 hr

theorem rowScales_spec (n : Nat) (A : Nat → Nat → K) :
    (∀ x, rowScales n A = some x → ∀ i < n, 0 < x i) ∧
      (rowScales n A = none → ∃ i < n, ∀ j < n, A i j = 0) := by
  unfold rowScales
  have := up_inv (fun m (s : Option (Nat → K)) =>
      (∀ x, s = some x → ∀ i < m, 0 < x i) ∧ (s = none → ∃ i < n, ∀ j < n, A i j = 0))
    (fun i s => s.bind fun x =>
      if rowNorm n A i = 0 then none else some (put x i (1 / rowNorm n A i)))
    (some fun _ => 0) n ⟨by simp, by simp⟩ ?_
  · exact this
  rintro m hm s ⟨h1, h2⟩
  cases s with
  | none => exact ⟨by simp, fun _ => h2 rfl⟩
  | some x =>
    simp only [Option.bind_some]
    by_cases h0 : rowNorm n A m = 0
    · rw [if_pos h0]
      refine ⟨by simp, fun _ => ⟨m, hm, fun j hj => ?_⟩⟩
      have := (rowNorm_spec n A m).2 j hj
      rw [h0] at this
      exact abs_eq_zero.1 (le_antisymm this (abs_nonneg _))
    · rw [if_neg h0]
      refine ⟨?_, by simp⟩
      rintro y hy i hi
      obtain rfl := Option.some.inj hy
      have hp : 0 < rowNorm n A m := lt_of_le_of_ne (rowNorm_spec n A m).1 (Ne.symm h0)
      unfold put
      by_cases him : i = m
      · rw [if_pos him]; exact one_div_pos.2 hp
      · rw [if_neg him]; exact h1 x rfl i (by omega)

/-! ### Pivot -/

theorem findPivot_spec (n : Nat) (A : Nat → Nat → K) (e : Nat → Nat) (x : Nat → K) (k : Nat)
    (hx : ∀ i, k ≤ i → i < n → 0 < x (e i)) (hk : k < n) :
    ((findPivot n A e x k).1 = 0 → ∀ i, k ≤ i → i < n → A (e i) k = 0) ∧
      ((findPivot n A e x k).1 ≠ 0 → k ≤ (findPivot n A e x k).2 ∧ (findPivot n A e x k).2 < n ∧
        A (e (findPivot n A e x k).2) k ≠ 0) := by
  have main := up_inv (fun m (s : K × Nat) => 0 ≤ s.1 ∧
      (∀ t < m, |A (e (k + t)) k| * x (e (k + t)) ≤ s.1) ∧
      (s.1 ≠ 0 → k ≤ s.2 ∧ s.2 < n ∧ A (e s.2) k ≠ 0))
    (fun t s => if s.1 < |A (e (k + t)) k| * x (e (k + t)) then
      (|A (e (k + t)) k| * x (e (k + t)), k + t) else s) ((0 : K), 0) (n - k)
    ⟨le_rfl, by simp, by simp⟩ ?_
  · change 0 ≤ (findPivot n A e x k).1 ∧ (∀ t < n - k, _ ≤ (findPivot n A e x k).1) ∧ _ at main
    obtain ⟨h0, h1, h2⟩ := main
    refine ⟨fun hz i hki hin => ?_, h2⟩
    have := h1 (i - k) (by omega)
    rw [hz, show k + (i - k) = i by omega] at this
    have h3 : |A (e i) k| = 0 := by
      by_contra hne
      have : 0 < |A (e i) k| * x (e i) :=
        mul_pos (lt_of_le_of_ne (abs_nonneg _) (Ne.symm hne)) (hx i hki hin)
      linarith
    exact abs_eq_zero.1 h3
  rintro t ht ⟨b, p⟩ ⟨h0, h1, h2⟩
  simp only at h0 h1 h2 ⊢
  by_cases hb : b < |A (e (k + t)) k| * x (e (k + t))
  · rw [if_pos hb]
    refine ⟨h0.trans hb.le, fun t' ht' => ?_, fun hne => ⟨by simp, by simp only; omega, ?_⟩⟩
    · rcases Nat.lt_succ_iff_lt_or_eq.1 ht' with h' | rfl
      · exact (h1 t' h').trans hb.le
      · exact le_rfl
    · intro hA
      simp only [hA, abs_zero, zero_mul] at hne
      exact hne rfl
  · rw [if_neg hb]
    refine ⟨h0, fun t' ht' => ?_, h2⟩
    rcases Nat.lt_succ_iff_lt_or_eq.1 ht' with h' | rfl
    · exact h1 t' h'
    · exact not_lt.1 hb

/-! ### Elimination -/

/-- `exch` restricted to `[0,n)` is a permutation. -/
def PermOn (n : Nat) (e : Nat → Nat) : Prop :=
  (∀ i < n, e i < n) ∧ ∀ i < n, ∀ j < n, e i = e j → i = j

theorem PermOn.surj {n : Nat} {e : Nat → Nat} (h : PermOn n e) (i : Nat) (hi : i < n) :
    ∃ j < n, e j = i := by
  have hinj : Function.Injective (fun j : Fin n => (⟨e j, h.1 j j.2⟩ : Fin n)) := by
    intro a b hab
    exact Fin.ext (h.2 a a.2 b b.2 (Fin.mk.inj_iff.1 hab))
  obtain ⟨j, hj⟩ := (Finite.injective_iff_surjective.1 hinj) ⟨i, hi⟩
  exact ⟨j, j.2, Fin.mk.inj_iff.1 hj⟩

theorem swapAt_perm {n : Nat} {e : Nat → Nat} (h : PermOn n e) {a b : Nat} (ha : a < n)
    (hb : b < n) : PermOn n (swapAt e a b) := by
  refine ⟨fun i hi => ?_, fun i hi j hj hij => ?_⟩
  · unfold swapAt
    split_ifs
    · exact h.1 b hb
    · exact h.1 a ha
    · exact h.1 i hi
  · unfold swapAt at hij
    split_ifs at hij <;> first | omega | (have := h.2 _ ‹_› _ ‹_› hij; omega) | skip
    all_goals first
      | (have := h.2 _ hb _ ha hij; omega)
      | (have := h.2 _ hb _ hj hij; omega)
      | (have := h.2 _ ha _ hb hij; omega)
      | (have := h.2 _ ha _ hj hij; omega)
      | (have := h.2 _ hi _ hb hij; omega)
      | (have := h.2 _ hi _ ha hij; omega)
      | (have := h.2 _ hi _ hj hij; omega)

theorem elimRow_spec (n : Nat) (e : Nat → Nat) (he : PermOn n e) (p : K) (k i : Nat) (hk : k < i)
    (hi : i < n) (A : Nat → Nat → K) (r j : Nat) (hr : r < n) (hj : j < n) :
    elimRow n e p k i A (e r) j =
      if r = i then (if j = k then A (e i) k / p
        else if k < j then A (e i) j - A (e i) k / p * A (e k) j else A (e i) j)
      else A (e r) j := by
  have hki : e k ≠ e i := fun h => by have := he.2 k (by omega) i hi h; omega
  have main := up_inv (fun m (B : Nat → Nat → K) => ∀ r < n, ∀ j, B (e r) j =
      if r = i then (if j = k then A (e i) k / p
        else if k < j ∧ j < k + 1 + m then A (e i) j - A (e i) k / p * A (e k) j else A (e i) j)
      else A (e r) j)
    (fun t A => elimEntry e k i (k + 1 + t) A) (put2 A (e i) k (A (e i) k / p)) (n - (k + 1)) ?_ ?_
  · have := main r hr j
    unfold elimRow
    rw [this]
    have e1 : (k < j ∧ j < k + 1 + (n - (k + 1))) ↔ k < j := by omega
    simp only [e1]
  · intro r hr j
    unfold put2
    by_cases h1 : r = i
    · subst h1
      by_cases h2 : j = k
      · subst h2; simp
      · have : ¬ (k < j ∧ j < k + 1 + 0) := by omega
        rw [if_neg (by tauto), if_pos rfl, if_neg h2, if_neg this]
    · have h3 : e r ≠ e i := fun h => h1 (he.2 r hr i hi h)
      rw [if_neg (by tauto), if_neg h1]
  · intro t ht B hB r hr j
    have hik := hB i hi k
    have hkj := hB k (by omega) (k + 1 + t)
    have hij := hB i hi (k + 1 + t)
    rw [if_pos rfl, if_pos rfl] at hik
    rw [if_neg (by omega)] at hkj
    rw [if_pos rfl, if_neg (by omega), if_neg (by omega)] at hij
    unfold elimEntry put2
    by_cases h1 : r = i
    · subst h1
      by_cases h2 : j = k + 1 + t
      · subst h2
        rw [if_pos ⟨rfl, rfl⟩, if_pos rfl, if_neg (by omega), if_pos (by omega), hij, hik, hkj]
      · rw [if_neg (by tauto), hB r hr j, if_pos rfl, if_pos rfl]
        have : (k < j ∧ j < k + 1 + t) ↔ (k < j ∧ j < k + 1 + (t + 1)) := by omega
        simp only [this]
    · have h3 : e r ≠ e i := fun h => h1 (he.2 r hr i hi h)
      rw [if_neg (by tauto), hB r hr j, if_neg h1, if_neg h1]

theorem elim_spec (n : Nat) (e : Nat → Nat) (he : PermOn n e) (k : Nat) (A : Nat → Nat → K)
    (hk : k < n) (i j : Nat) (hi : i < n) (hj : j < n) :
    elim n e k A (e i) j =
      if k < i then (if j = k then A (e i) k / A (e k) k
        else if k < j then A (e i) j - A (e i) k / A (e k) k * A (e k) j else A (e i) j)
      else A (e i) j := by
  have main := up_inv (fun m (B : Nat → Nat → K) => ∀ i < n, ∀ j < n, B (e i) j =
      if k < i ∧ i < k + 1 + m then (if j = k then A (e i) k / A (e k) k
        else if k < j then A (e i) j - A (e i) k / A (e k) k * A (e k) j else A (e i) j)
      else A (e i) j)
    (fun t B => elimRow n e (A (e k) k) k (k + 1 + t) B) A (n - (k + 1)) ?_ ?_
  · have := main i hi j hj
    unfold elim
    rw [this]
    have e1 : (k < i ∧ i < k + 1 + (n - (k + 1))) ↔ k < i := by omega
    simp only [e1]
  · intro i hi j hj
    rw [if_neg (by omega)]
  · intro t ht B hB i hi j hj
    rw [elimRow_spec n e he _ k (k + 1 + t) (by omega) (by omega) B i j hi hj]
    by_cases h1 : i = k + 1 + t
    · subst h1
      have a1 : ∀ j < n, B (e (k + 1 + t)) j = A (e (k + 1 + t)) j := fun j hj => by
        rw [hB (k + 1 + t) hi j hj, if_neg (by omega)]
      have a2 : ∀ j < n, B (e k) j = A (e k) j := fun j hj => by
        rw [hB k (by omega) j hj, if_neg (by omega)]
      rw [if_pos rfl, a1 k hk, a1 j hj, a2 j hj,
        if_pos (show k < k + 1 + t ∧ k + 1 + t < k + 1 + (t + 1) by omega)]
    · rw [if_neg h1, hB i hi j hj]
      have : (k < i ∧ i < k + 1 + t) ↔ (k < i ∧ i < k + 1 + (t + 1)) := by omega
      simp only [this]

/-! ### The triangular decomposition -/

/-- After `k` columns: row `i` of the permuted matrix is the product of the unit lower triangular and
the upper triangular parts found so far, plus what is still to be reduced. -/
structure LuInv (n k : Nat) (A0 B : Nat → Nat → K) (e : Nat → Nat) : Prop where
  perm : PermOn n e
  diag : ∀ m < k, B (e m) m ≠ 0
  prod : ∀ i < n, ∀ j < n, A0 (e i) j =
    (∑ m ∈ Finset.range k, if m < i ∧ m ≤ j then B (e i) m * B (e m) j else 0) +
      if j < k ∧ j < i then 0 else B (e i) j

theorem LuInv.swap {n k : Nat} {A0 B : Nat → Nat → K} {e : Nat → Nat} (h : LuInv n k A0 B e)
    {p : Nat} (hk : k < n) (hp : k ≤ p) (hpn : p < n) : LuInv n k A0 B (swapAt e p k) := by
  have hlow : ∀ m < k, swapAt e p k m = e m := fun m hm => by
    unfold swapAt
    rw [if_neg (by omega), if_neg (by omega)]
  refine ⟨swapAt_perm h.perm hpn hk, fun m hm => by rw [hlow m hm]; exact h.diag m hm,
    fun i hi j hj => ?_⟩
  have hs : (∑ m ∈ Finset.range k, if m < i ∧ m ≤ j then
        B (swapAt e p k i) m * B (swapAt e p k m) j else 0) =
      ∑ m ∈ Finset.range k, if m < i ∧ m ≤ j then B (swapAt e p k i) m * B (e m) j else 0 := by
    refine Finset.sum_congr rfl fun m hm => ?_
    rw [hlow m (Finset.mem_range.1 hm)]
  rw [hs]
  by_cases hik : i < k
  · rw [hlow i hik]; exact h.prod i hi j hj
  · -- a row not yet reduced: the same formula holds for its source
    obtain ⟨i', hi', hki', he⟩ : ∃ i' < n, k ≤ i' ∧ swapAt e p k i = e i' := by
      unfold swapAt
      split_ifs
      · exact ⟨k, hk, le_rfl, rfl⟩
      · exact ⟨p, hpn, hp, rfl⟩
      · exact ⟨i, hi, by omega, rfl⟩
    rw [he, h.prod i' hi' j hj]
    congr 1
    · refine Finset.sum_congr rfl fun m hm => ?_
      have := Finset.mem_range.1 hm
      have e1 : (m < i' ∧ m ≤ j) ↔ (m < i ∧ m ≤ j) := by omega
      simp only [e1]
    · have e1 : (j < k ∧ j < i') ↔ (j < k ∧ j < i) := by omega
      simp only [e1]

theorem LuInv.elim {n k : Nat} {A0 B : Nat → Nat → K} {e : Nat → Nat} (h : LuInv n k A0 B e)
    (hk : k < n) (hp : B (e k) k ≠ 0) : LuInv n (k + 1) A0 (elim n e k B) e := by
  have E := fun i hi j hj => elim_spec n e h.perm k B hk i j hi hj
  have Elow : ∀ i ≤ k, ∀ j < n, Nissa.Remez.elim n e k B (e i) j = B (e i) j := fun i hi j hj => by
    rw [E i (by omega) j hj, if_neg (by omega)]
  have Ecol : ∀ i < n, ∀ m < k, Nissa.Remez.elim n e k B (e i) m = B (e i) m := fun i hi m hm => by
    rw [E i hi m (by omega)]
    split_ifs <;> first | rfl | omega
  refine ⟨h.perm, fun m hm => ?_, fun i hi j hj => ?_⟩
  · rw [Elow m (by omega) m (by omega)]
    rcases Nat.lt_succ_iff_lt_or_eq.1 hm with h' | rfl
    · exact h.diag m h'
    · exact hp
  · rw [h.prod i hi j hj, Finset.sum_range_succ, Elow k le_rfl j hj]
    have hs : (∑ m ∈ Finset.range k, if m < i ∧ m ≤ j then
          Nissa.Remez.elim n e k B (e i) m * Nissa.Remez.elim n e k B (e m) j else 0) =
        ∑ m ∈ Finset.range k, if m < i ∧ m ≤ j then B (e i) m * B (e m) j else 0 := by
      refine Finset.sum_congr rfl fun m hm => ?_
      have hm' := Finset.mem_range.1 hm
      rw [Ecol i hi m hm', Elow m (by omega) j hj]
    rw [hs, add_assoc]
    congr 1
    by_cases hik : k < i
    · rw [E i hi k hk, if_pos hik, if_pos rfl, E i hi j hj, if_pos hik]
      by_cases hjk : j = k
      · subst hjk
        rw [if_neg (by omega), if_pos (by omega), if_pos (by omega), add_zero]
        field_simp
      · by_cases hlt : j < k
        · rw [if_pos (by omega), if_neg (by omega), if_pos (by omega), add_zero]
        · rw [if_neg (by omega), if_pos (by omega), if_neg (by omega), if_neg hjk,
            if_pos (by omega)]
          ring
    · rw [if_neg (show ¬ (k < i ∧ k ≤ j) by omega), Elow i (by omega) j hj, zero_add]
      have e1 : (j < k ∧ j < i) ↔ (j < k + 1 ∧ j < i) := by omega
      simp only [e1]

/-- A column with no pivot shows a vector annihilated by the matrix. -/
theorem LuInv.singular {n k : Nat} {A0 B : Nat → Nat → K} {e : Nat → Nat} (h : LuInv n k A0 B e)
    (hk : k < n) (hz : ∀ i, k ≤ i → i < n → B (e i) k = 0) :
    ∃ v : Nat → K, v k = 1 ∧ ∀ i < n, ∑ j ∈ Finset.range n, A0 i j * v j = 0 := by
  -- backward recursion
  have hv : ∀ l ≤ k, ∃ v : Nat → K, v k = 1 ∧ (∀ j, k < j → v j = 0) ∧
      ∀ m, k - l ≤ m → m < k → ∑ j ∈ Finset.range n, (if m ≤ j then B (e m) j * v j else 0) = 0 := by
    intro l
    induction l with
    | zero =>
      intro _
      exact ⟨fun j => if j = k then 1 else 0, by simp, fun j hj => by simp; omega,
        fun m h1 h2 => by omega⟩
    | succ l ih =>
      intro hl
      obtain ⟨v, hv1, hv2, hv3⟩ := ih (by omega)
      set q := k - (l + 1) with hq
      have hqk : q < k := by omega
      set s := ∑ j ∈ Finset.range n, (if q < j then B (e q) j * v j else 0) with hs
      refine ⟨fun j => if j = q then -s / B (e q) q else v j, ?_, ?_, ?_⟩
      · beta_reduce; rw [if_neg (by omega)]; exact hv1
      · intro j hj; beta_reduce; rw [if_neg (by omega)]; exact hv2 j hj
      · intro m h1 h2
        rcases Nat.eq_or_lt_of_le h1 with h' | h'
        · subst h'
          have : ∀ j ∈ Finset.range n, (if q ≤ j then B (e q) j *
              (if j = q then -s / B (e q) q else v j) else 0) =
              (if j = q then -s else 0) + (if q < j then B (e q) j * v j else 0) := by
            intro j _
            have hd := h.diag q hqk
            by_cases a : j = q
            · subst a; simp; field_simp
            · by_cases b : q < j
              · rw [if_pos (by omega), if_neg a, if_neg a, if_pos b, zero_add]
              · rw [if_neg (by omega), if_neg a, if_neg b, zero_add]
          rw [Finset.sum_congr rfl this, Finset.sum_add_distrib, ← hs, Finset.sum_ite_eq',
            if_pos (Finset.mem_range.2 (by omega))]
          ring
        · refine (Finset.sum_congr rfl fun j _ => ?_).trans (hv3 m (by omega) h2)
          beta_reduce
          by_cases b : m ≤ j
          · rw [if_pos b, if_pos b, if_neg (by omega)]
          · rw [if_neg b, if_neg b]
  obtain ⟨v, hv1, hv2, hv3⟩ := hv k le_rfl
  refine ⟨v, hv1, fun i0 hi0 => ?_⟩
  obtain ⟨i, hi, rfl⟩ := h.perm.surj i0 hi0
  have hrow : ∀ j ∈ Finset.range n, A0 (e i) j * v j =
      (∑ m ∈ Finset.range k, (if m < i then B (e i) m * (if m ≤ j then B (e m) j * v j else 0)
        else 0)) + (if j < k ∧ j < i then 0 else B (e i) j) * v j := by
    intro j hj
    rw [h.prod i hi j (Finset.mem_range.1 hj), add_mul, Finset.sum_mul]
    congr 1
    refine Finset.sum_congr rfl fun m _ => ?_
    by_cases a : m < i <;> by_cases b : m ≤ j <;> simp [a, b, mul_assoc]
  rw [Finset.sum_congr rfl hrow, Finset.sum_add_distrib, Finset.sum_comm]
  have h1 : ∑ m ∈ Finset.range k, ∑ j ∈ Finset.range n,
      (if m < i then B (e i) m * (if m ≤ j then B (e m) j * v j else 0) else 0) = 0 := by
    refine Finset.sum_eq_zero fun m hm => ?_
    by_cases a : m < i
    · simp only [if_pos a]
      rw [← Finset.mul_sum, hv3 m (by omega) (Finset.mem_range.1 hm), mul_zero]
    · simp [a]
  rw [h1, zero_add]
  by_cases hik : i < k
  · refine (Finset.sum_congr rfl fun j _ => ?_).trans (hv3 i (by omega) hik)
    by_cases b : i ≤ j
    · rw [if_pos b, if_neg (by omega)]
    · rw [if_neg b, if_pos (by omega), zero_mul]
  · refine Finset.sum_eq_zero fun j hj => ?_
    by_cases a : j < k
    · rw [if_pos (by omega), zero_mul]
    · by_cases b : j = k
      · subst b; rw [hz i (by omega) hi]; simp
      · rw [hv2 j (by omega), mul_zero]

theorem lu_spec (n : Nat) (hn : 0 < n) (A : Nat → Nat → K) (x : Nat → K) (hx : ∀ i < n, 0 < x i) :
    (∀ s, lu n A x = some s → LuInv n (n - 1) A s.1 s.2) ∧
      (lu n A x = none → ∃ v : Nat → K, (∃ k < n, v k ≠ 0) ∧
        ∀ i < n, ∑ j ∈ Finset.range n, A i j * v j = 0) := by
  unfold lu
  refine up_inv (fun k (o : Option ((Nat → Nat → K) × (Nat → Nat))) =>
    (∀ s, o = some s → LuInv n k A s.1 s.2) ∧
      (o = none → ∃ v : Nat → K, (∃ k < n, v k ≠ 0) ∧
        ∀ i < n, ∑ j ∈ Finset.range n, A i j * v j = 0)) _ _ (n - 1) ⟨?_, by simp⟩ ?_
  · rintro s hs
    obtain rfl := Option.some.inj hs
    refine ⟨⟨fun i hi => hi, fun i _ j _ h => h⟩, by simp, fun i hi j hj => by simp⟩
  · rintro k hk o ⟨h1, h2⟩
    cases o with
    | none => exact ⟨by simp, fun _ => h2 rfl⟩
    | some s =>
      have inv := h1 s rfl
      have piv := findPivot_spec n s.1 s.2 x k
        (fun i _ hi => hx _ (inv.perm.1 i hi)) (by omega)
      simp only [Option.bind_some]
      unfold luStep
      by_cases hz : (findPivot n s.1 s.2 x k).1 = 0
      · rw [if_pos hz]
        refine ⟨by simp, fun _ => ?_⟩
        obtain ⟨v, hv, hA⟩ := inv.singular (by omega) (piv.1 hz)
        exact ⟨v, ⟨k, by omega, by rw [hv]; exact one_ne_zero⟩, hA⟩
      · rw [if_neg hz]
        refine ⟨?_, by simp⟩
        rintro s' hs'
        obtain rfl := Option.some.inj hs'
        obtain ⟨p1, p2, p3⟩ := piv.2 hz
        refine (inv.swap (by omega) p1 p2).elim (by omega) ?_
        have : swapAt s.2 (findPivot n s.1 s.2 x k).2 k k = s.2 (findPivot n s.1 s.2 x k).2 := by
          unfold swapAt
          split_ifs with a
          · exact congrArg _ a
          · rfl
          · exact absurd rfl ‹¬k = k›
        rw [this]
        exact p3

/-! ### Substitutions -/

theorem forward_spec (n : Nat) (B : Nat → Nat → K) (e : Nat → Nat) (b x : Nat → K) :
    ∀ i < n, forward n B e b x i =
      b (e i) - ∑ j ∈ Finset.range i, B (e i) j * forward n B e b x j := by
  have main := up_inv (fun m (y : Nat → K) => ∀ i < m, y i =
      b (e i) - ∑ j ∈ Finset.range i, B (e i) j * y j)
    (fun i x => up i (fun j x => put x i (x i - B (e i) j * x j)) (put x i (b (e i)))) x n
    (by simp) ?_
  · exact main
  rintro m hm y hy
  have inner := up_inv (fun l (z : Nat → K) => (∀ j ≠ m, z j = y j) ∧
      z m = b (e m) - ∑ j ∈ Finset.range l, B (e m) j * y j)
    (fun j x => put x m (x m - B (e m) j * x j)) (put y m (b (e m))) m ?_ ?_
  · obtain ⟨i1, i2⟩ := inner
    intro i hi
    beta_reduce
    rcases Nat.lt_succ_iff_lt_or_eq.1 hi with h' | rfl
    · rw [i1 i (by omega), hy i h']
      congr 1
      refine Finset.sum_congr rfl fun j hj => ?_
      rw [i1 j (by have := Finset.mem_range.1 hj; omega)]
    · rw [i2]
      congr 1
      refine Finset.sum_congr rfl fun j hj => ?_
      rw [i1 j (by have := Finset.mem_range.1 hj; omega)]
  · refine ⟨fun j hj => ?_, ?_⟩
    · unfold put; rw [if_neg hj]
    · unfold put; simp
  · rintro l hl z ⟨z1, z2⟩
    refine ⟨fun j hj => ?_, ?_⟩
    · unfold put; rw [if_neg hj]; exact z1 j hj
    · unfold put
      rw [if_pos rfl, z2, z1 l (by omega), Finset.sum_range_succ]
      ring

theorem backOne_spec (n : Nat) (B : Nat → Nat → K) (e : Nat → Nat) (i : Nat) (x : Nat → K)
    (hi : i < n) :
    (∀ j ≠ i, backOne n B e i x j = x j) ∧
      backOne n B e i x i = (x i - ∑ j ∈ Finset.Ico (i + 1) n, B (e i) j * x j) / B (e i) i := by
  have inner := up_inv (fun l (z : Nat → K) => (∀ j ≠ i, z j = x j) ∧
      z i = x i - ∑ t ∈ Finset.range l, B (e i) (i + 1 + t) * x (i + 1 + t))
    (fun t x => put x i (x i - B (e i) (i + 1 + t) * x (i + 1 + t))) x (n - (i + 1))
    ⟨fun _ _ => rfl, by simp⟩ ?_
  · obtain ⟨i1, i2⟩ := inner
    unfold backOne
    refine ⟨fun j hj => ?_, ?_⟩
    · show put _ i _ j = _
      unfold put
      rw [if_neg hj]
      exact i1 j hj
    · show put _ i _ i = _
      unfold put
      rw [if_pos rfl]
      rw [Finset.sum_Ico_eq_sum_range]
      exact congrArg (· / B (e i) i) i2
  · rintro l hl z ⟨z1, z2⟩
    refine ⟨fun j hj => ?_, ?_⟩
    · unfold put; rw [if_neg hj]; exact z1 j hj
    · unfold put
      rw [if_pos rfl, z2, z1 (i + 1 + l) (by omega), Finset.sum_range_succ]
      ring

theorem backward_spec (n : Nat) (B : Nat → Nat → K) (e : Nat → Nat) (y : Nat → K)
    (hd : ∀ i < n, B (e i) i ≠ 0) :
    ∀ i < n, ∑ j ∈ Finset.Ico i n, B (e i) j * backward n B e y j = y i := by
  have main := down_inv (fun m (x : Nat → K) => (∀ j < m, x j = y j) ∧
      ∀ i, m ≤ i → i < n → ∑ j ∈ Finset.Ico i n, B (e i) j * x j = y i)
    (fun i x => backOne n B e i x) y n ⟨fun _ _ => rfl, fun i h1 h2 => by omega⟩ ?_
  · intro i hi
    exact main.2 i (by omega) hi
  rintro m hm x ⟨x1, x2⟩
  obtain ⟨b1, b2⟩ := backOne_spec n B e m x hm
  refine ⟨fun j hj => ?_, fun i h1 h2 => ?_⟩
  · beta_reduce; rw [b1 j (by omega)]; exact x1 j (by omega)
  · beta_reduce
    rcases Nat.eq_or_lt_of_le h1 with rfl | h'
    · rw [Finset.sum_eq_sum_Ico_succ_bot h2, b2]
      have : ∑ k ∈ Finset.Ico (m + 1) n, B (e m) k * backOne n B e m x k =
          ∑ k ∈ Finset.Ico (m + 1) n, B (e m) k * x k := by
        refine Finset.sum_congr rfl fun j hj => ?_
        have := Finset.mem_Ico.1 hj
        rw [b1 j (by omega)]
      rw [this, mul_div_cancel₀ _ (hd m hm), x1 m (by omega)]
      ring
    · rw [← x2 i h' h2]
      refine Finset.sum_congr rfl fun j hj => ?_
      have := Finset.mem_Ico.1 hj
      rw [b1 j (by omega)]

/-- The decomposition and the two substitutions solve the system. -/
theorem LuInv.solves {n : Nat} {A0 B : Nat → Nat → K} {e : Nat → Nat} (hn : 0 < n)
    (h : LuInv n (n - 1) A0 B e) (hl : B (e (n - 1)) (n - 1) ≠ 0) (b x0 : Nat → K) :
    ∀ i < n, ∑ j ∈ Finset.range n, A0 i j * backward n B e (forward n B e b x0) j = b i := by
  have hd : ∀ i < n, B (e i) i ≠ 0 := fun i hi => by
    by_cases a : i = n - 1
    · rw [a]; exact hl
    · exact h.diag i (by omega)
  set y := forward n B e b x0 with hy
  set x := backward n B e y with hx
  have hf := forward_spec n B e b x0
  have hb := backward_spec n B e y hd
  rw [← hy] at hf
  rw [← hx] at hb
  intro i0 hi0
  obtain ⟨i, hi, rfl⟩ := h.perm.surj i0 hi0
  have cut : ∀ (m : Nat) (f : Nat → K), m < n →
      ∑ j ∈ Finset.range n, (if m ≤ j then f j else 0) = ∑ j ∈ Finset.Ico m n, f j := by
    intro m f _
    rw [← Finset.sum_filter]
    refine Finset.sum_congr ?_ fun _ _ => rfl
    ext j
    simp only [Finset.mem_filter, Finset.mem_range, Finset.mem_Ico]
    omega
  have hrow : ∀ j ∈ Finset.range n, A0 (e i) j * x j =
      (∑ m ∈ Finset.range (n - 1), (if m < i then B (e i) m *
        (if m ≤ j then B (e m) j * x j else 0) else 0)) + (if i ≤ j then B (e i) j * x j else 0) := by
    intro j hj
    have hj' := Finset.mem_range.1 hj
    rw [h.prod i hi j hj', add_mul, Finset.sum_mul]
    congr 1
    · refine Finset.sum_congr rfl fun m _ => ?_
      by_cases a : m < i <;> by_cases b : m ≤ j <;> simp [a, b, mul_assoc]
    · by_cases a : i ≤ j
      · rw [if_neg (by omega), if_pos a]
      · rw [if_pos (by omega), if_neg a, zero_mul]
  rw [Finset.sum_congr rfl hrow, Finset.sum_add_distrib, Finset.sum_comm, cut i _ hi, hb i hi]
  have h1 : ∑ m ∈ Finset.range (n - 1), ∑ j ∈ Finset.range n,
      (if m < i then B (e i) m * (if m ≤ j then B (e m) j * x j else 0) else 0) =
      ∑ m ∈ Finset.range i, B (e i) m * y m := by
    have : ∀ m ∈ Finset.range (n - 1), ∑ j ∈ Finset.range n,
        (if m < i then B (e i) m * (if m ≤ j then B (e m) j * x j else 0) else 0) =
        if m < i then B (e i) m * y m else 0 := by
      intro m hm
      have hm' := Finset.mem_range.1 hm
      by_cases a : m < i
      · simp only [if_pos a]
        rw [← Finset.mul_sum, cut m _ (by omega), hb m (by omega)]
      · simp [a]
    rw [Finset.sum_congr rfl this, ← Finset.sum_filter]
    refine Finset.sum_congr ?_ fun _ _ => rfl
    ext m
    simp only [Finset.mem_filter, Finset.mem_range]
    omega
  rw [h1, hf i hi]
  ring

/-! ### Specification -/

/-- The first `n` rows and columns as a matrix. -/
def sysMatrix (n : Nat) (A : Nat → Nat → K) : Matrix (Fin n) (Fin n) K :=
  Matrix.of fun i j => A i j

theorem sysMatrix_mulVec (n : Nat) (A : Nat → Nat → K) (v : Nat → K) (i : Fin n) :
    (sysMatrix n A).mulVec (fun j => v j) i = ∑ j ∈ Finset.range n, A i j * v j := by
  rw [Finset.sum_range]
  rfl

/-- **C56**: the solver crashes exactly on singular matrices, and otherwise returns the solution of
the system. -/
theorem C56_linear_system (n : Nat) (hn : 0 < n) (A : Nat → Nat → K) (b : Nat → K) :
    (linear_system_solve n A b = none ↔ (sysMatrix n A).det = 0) ∧
      ∀ x, linear_system_solve n A b = some x →
        (∀ i < n, ∑ j ∈ Finset.range n, A i j * x j = b i) ∧
        ∀ x' : Nat → K, (∀ i < n, ∑ j ∈ Finset.range n, A i j * x' j = b i) →
          ∀ j < n, x' j = x j := by
  -- a null vector makes the determinant vanish
  have sing : (∃ v : Nat → K, (∃ k < n, v k ≠ 0) ∧
      ∀ i < n, ∑ j ∈ Finset.range n, A i j * v j = 0) → (sysMatrix n A).det = 0 := by
    rintro ⟨v, ⟨k, hk, hvk⟩, hv⟩
    refine Matrix.exists_mulVec_eq_zero_iff.1 ⟨fun j : Fin n => v j, ?_, ?_⟩
    · intro h; exact hvk (congrFun h ⟨k, hk⟩)
    · funext i
      rw [sysMatrix_mulVec]
      exact hv i i.2
  have cases : (linear_system_solve n A b = none ∧ (sysMatrix n A).det = 0) ∨
      ∃ x, linear_system_solve n A b = some x ∧ ∃ B e, LuInv n (n - 1) A B e ∧
        B (e (n - 1)) (n - 1) ≠ 0 ∧ ∀ i < n, ∑ j ∈ Finset.range n, A i j * x j = b i := by
    unfold linear_system_solve
    obtain ⟨r1, r2⟩ := rowScales_spec n A
    cases hr : rowScales n A with
    | none =>
      left
      obtain ⟨i, hi, hz⟩ := r2 hr
      refine ⟨rfl, Matrix.det_eq_zero_of_row_eq_zero ⟨i, hi⟩ fun j => hz j j.2⟩
    | some x =>
      obtain ⟨l1, l2⟩ := lu_spec n hn A x (r1 x hr)
      cases hlu : lu n A x with
      | none => left; exact ⟨by simp [hlu], sing (l2 hlu)⟩
      | some s =>
        obtain ⟨B, e⟩ := s
        have inv := l1 _ hlu
        simp only [hlu]
        by_cases hz : B (e (n - 1)) (n - 1) = 0
        · left
          rw [if_pos hz]
          refine ⟨rfl, sing ?_⟩
          obtain ⟨v, hv, hA⟩ := inv.singular (by omega) (fun i h1 h2 => by
            have : i = n - 1 := by omega
            rw [this]; exact hz)
          exact ⟨v, ⟨n - 1, by omega, by rw [hv]; exact one_ne_zero⟩, hA⟩
        · right
          rw [if_neg hz]
          exact ⟨_, rfl, B, e, inv, hz, inv.solves hn hz b x⟩
  -- with a decomposition at hand every right-hand side is solved: the determinant is not zero
  have regular : (∃ B e, LuInv n (n - 1) A B e ∧ B (e (n - 1)) (n - 1) ≠ 0) →
      (sysMatrix n A).det ≠ 0 := by
    rintro ⟨B, e, inv, hl⟩ hdet
    obtain ⟨w, hw, hwA⟩ := Matrix.exists_vecMul_eq_zero_iff.2 hdet
    apply hw
    funext i
    have hsol := inv.solves hn hl (fun j => if j = (i : Nat) then 1 else 0) (fun _ => 0)
    set x := backward n B e (forward n B e (fun j => if j = (i : Nat) then (1 : K) else 0)
      fun _ => 0) with hx
    have h1 : (sysMatrix n A).mulVec (fun j => x j) = Pi.single i 1 := by
      funext r
      rw [sysMatrix_mulVec, hsol r r.2]
      by_cases a : r = i
      · subst a; simp
      · rw [Pi.single_eq_of_ne a, if_neg (fun h => a (Fin.ext h))]
    have h2 := congrArg (fun v => dotProduct w v) h1
    simp only [Matrix.dotProduct_mulVec, hwA, zero_dotProduct, dotProduct_single, mul_one] at h2
    exact h2.symm
  rcases cases with ⟨h1, h2⟩ | ⟨x, h1, B, e, inv, hl, hsol⟩
  · refine ⟨⟨fun _ => h2, fun _ => h1⟩, fun x hx => ?_⟩
    rw [h1] at hx
    exact absurd hx (by simp)
  · have hdet := regular ⟨B, e, inv, hl⟩
    refine ⟨⟨fun h => by rw [h1] at h; exact absurd h (by simp), fun h => absurd h hdet⟩, ?_⟩
    rintro y hy
    have : x = y := Option.some.inj (h1.symm.trans hy)
    subst this
    refine ⟨hsol, fun x' hx' j hj => ?_⟩
    have h3 : (sysMatrix n A).mulVec (fun j => x' j) = (sysMatrix n A).mulVec (fun j => x j) := by
      funext r
      rw [sysMatrix_mulVec, sysMatrix_mulVec, hx' r r.2, hsol r r.2]
    have := Matrix.mulVec_injective_of_isUnit
      ((Matrix.isUnit_iff_isUnit_det _).2 (isUnit_iff_ne_zero.2 hdet)) h3
    exact congrFun this ⟨j, hj⟩

/-- The solver at work on a system needing a row exchange, and on a singular one. -/
def exA : Nat → Nat → Rat := fun i j => if i = 0 then (if j = 0 then 0 else j) else (i + j : Nat)

example : (linear_system_solve 2 exA (fun i => if i = 0 then 3 else 5)).map (fun x => (x 0, x 1)) =
    some (-1, 3) := by decide +kernel

example : (linear_system_solve 2 (fun i j : Nat => ((i + 1) * (j + 1) : Rat))
    (fun _ => 1)).isNone = true := by decide +kernel

end Nissa.Remez
