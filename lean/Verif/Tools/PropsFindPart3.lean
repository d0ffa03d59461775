import Verif.Tools.PropsFindPart2
import Mathlib.Data.Nat.Prime.Basic
set_option linter.all false

/-! The enumeration of the partitions. -/

namespace Nissa.Part

/-! ## factorize -/

theorem factLoop_spec : ∀ (fuel n fatt : Nat) (l : List Nat), 0 < n → 2 ≤ fatt → (∀ p, p.Prime → p ∣ n → fatt ≤ p) → 2 * n - fatt ≤ fuel →
    (∀ p ∈ l, p.Prime) → (factLoop fuel n fatt l).prod = l.prod * n ∧ ∀ p ∈ factLoop fuel n fatt l, p.Prime := by
  intro fuel
  induction fuel with
  | zero =>
    intro n fatt l hn hf hp hm hl
    have : n = 1 := by
      by_contra h1
      have := hp n.minFac (Nat.minFac_prime h1) (Nat.minFac_dvd n)
      have := Nat.minFac_le hn
      omega
    subst this
    simp [factLoop]; exact hl
  | succ fuel ih =>
    intro n fatt l hn hf hp hm hl
    unfold factLoop
    by_cases h1 : n > 1
    · rw [if_pos h1]
      dsimp only
      have hle : fatt ≤ n := by
        have := hp n.minFac (Nat.minFac_prime (by omega)) (Nat.minFac_dvd n)
        have := Nat.minFac_le hn
        omega
      have hmod : n - n / fatt * fatt = n % fatt := by
        have := Nat.div_add_mod' n fatt; omega
      rw [hmod]
      by_cases hr : n % fatt ≠ 0
      · rw [if_pos hr]
        refine ih n (fatt + 1) l hn (by omega) ?_ (by omega) hl
        intro p pp pd
        have := hp p pp pd
        rcases Nat.lt_or_ge fatt p with h | h
        · exact h
        · have : p = fatt := by omega
          subst this
          exact absurd (Nat.mod_eq_zero_of_dvd pd) hr
      · rw [if_neg hr]
        have hd : fatt ∣ n := Nat.dvd_of_mod_eq_zero (by omega)
        have pf : fatt.Prime := by
          have h2 : fatt ≠ 1 := by omega
          have := hp fatt.minFac (Nat.minFac_prime h2) ((Nat.minFac_dvd fatt).trans hd)
          have h3 := Nat.minFac_le (n := fatt) (by omega)
          have : fatt.minFac = fatt := by omega
          rw [← this]; exact Nat.minFac_prime h2
        have hlt : n / fatt < n := Nat.div_lt_self hn (by omega)
        obtain ⟨q1, q2⟩ := ih (n / fatt) fatt (l ++ [fatt]) (Nat.div_pos hle (by omega)) hf
          (fun p pp pd => hp p pp (pd.trans (Nat.div_dvd_of_dvd hd))) (by omega)
          (by intro p hp'; rcases List.mem_append.1 hp' with h | h
              · exact hl p h
              · simp at h; rw [h]; exact pf)
        refine ⟨?_, q2⟩
        rw [q1, List.prod_append, List.prod_singleton, Nat.mul_assoc, Nat.mul_div_cancel' hd]
    · rw [if_neg h1]
      have : n = 1 := by omega
      subst this
      exact ⟨by simp, hl⟩

theorem factorize_spec {n : Nat} (h : 0 < n) : (factorize n).prod = n ∧ ∀ p ∈ factorize n, p.Prime := by
  have := factLoop_spec (2 * n) n 2 [] h (by omega) (fun p pp _ => pp.two_le) (by omega) (by simp)
  simpa [factorize] using this

/-! ## the grid of a combination -/

/-- the grid given by the digits of a combination -/
def fullR : List Nat → Nat → C4
  | [], _ => fun _ => 1
  | f :: fs, i => fun m => if m.val = i % 4 then fullR fs (i / 4) m * f else fullR fs (i / 4) m

/-- the grid from the digits not below k -/
def partR (P : Lister) (i k : Nat) : C4 := fullR (P.facts.drop k) (i / 4 ^ k)

theorem partR_top (P : Lister) (i : Nat) : partR P i P.facts.length = fun _ => 1 := by
  unfold partR; simp [fullR]

theorem partR_zero (P : Lister) (i : Nat) : partR P i 0 = fullR P.facts i := by simp [partR]

theorem partR_congr (P : Lister) {i i' k : Nat} (h : i / 4 ^ k = i' / 4 ^ k) : partR P i k = partR P i' k := by
  unfold partR; rw [h]

/-- direction of a digit -/
def dig (i k : Nat) : Dir := ⟨i / 4 ^ k % 4, Nat.mod_lt _ (by decide)⟩

theorem partR_step (P : Lister) (i : Nat) {k : Nat} (h : k < P.facts.length) :
    partR P i k = Function.update (partR P i (k + 1)) (dig i k) (partR P i (k + 1) (dig i k) * P.facts.getD k 0) := by
  unfold partR
  rw [List.drop_eq_getElem_cons h]
  have e : i / 4 ^ (k + 1) = i / 4 ^ k / 4 := by rw [Nat.div_div_eq_div_mul, Nat.pow_succ]
  rw [e]
  have g : P.facts.getD k 0 = P.facts[k] := by simp [List.getD, h]
  rw [g]
  funext m
  simp only [fullR, Function.update_apply]
  by_cases hm : m = dig i k
  · subst hm; rw [if_pos rfl, if_pos (show (dig i k).val = i / 4 ^ k % 4 from rfl)]
  · rw [if_neg hm, if_neg]
    intro h'; exact hm (Fin.ext h')

theorem inner_succ (P : Lister) (i k : Nat) (R : C4) : inner P i (k + 1) R =
    if P.L (dig i k) % (Function.update R (dig i k) (R (dig i k) * P.facts.getD k 0)) (dig i k) = 0 ∧
        P.L (dig i k) ≥ (Function.update R (dig i k) (R (dig i k) * P.facts.getD k 0)) (dig i k)
    then inner P i k (Function.update R (dig i k) (R (dig i k) * P.facts.getD k 0))
    else (Function.update R (dig i k) (R (dig i k) * P.facts.getD k 0), k + 1, false) := rfl

/-- one step on the grid of the digits -/
theorem inner_part (P : Lister) (i : Nat) {k : Nat} (h : k < P.facts.length) : inner P i (k + 1) (partR P i (k + 1)) =
    if partR P i k (dig i k) ∣ P.L (dig i k) ∧ partR P i k (dig i k) ≤ P.L (dig i k) then inner P i k (partR P i k)
    else (partR P i k, k + 1, false) := by
  rw [inner_succ, ← partR_step P i h]
  simp only [Nat.dvd_iff_mod_eq_zero, ge_iff_le]

theorem inner_valid (P : Lister) (i : Nat) : ∀ k, k ≤ P.facts.length → (∀ m, partR P i k m ∣ P.L m) →
    (inner P i k (partR P i k)).2.2 = true →
    inner P i k (partR P i k) = (fullR P.facts i, 0, true) ∧ ∀ m, fullR P.facts i m ∣ P.L m
  | 0, _, hd, _ => by
    refine ⟨by rw [partR_zero]; rfl, ?_⟩
    rw [← partR_zero]; exact hd
  | k + 1, hk, hd, hv => by
    rw [inner_part P i (by omega)] at hv ⊢
    split at hv
    · rename_i hc
      rw [if_pos hc]
      refine inner_valid P i k (by omega) ?_ hv
      intro m
      by_cases hm : m = dig i k
      · rw [hm]; exact hc.1
      · rw [partR_step P i (by omega), Function.update_of_ne hm]; exact hd m
    · simp at hv

theorem partR_dvd (P : Lister) (i : Nat) (m : Dir) : ∀ k, k ≤ P.facts.length → partR P i k m ∣ fullR P.facts i m
  | 0, _ => by rw [partR_zero]
  | k + 1, hk => by
    refine Nat.dvd_trans ?_ (partR_dvd P i m k (by omega))
    rw [partR_step P i (k := k) (by omega)]
    by_cases hm : m = dig i k
    · subst hm; rw [Function.update_self]; exact Nat.dvd_mul_right _ _
    · rw [Function.update_of_ne hm]

theorem inner_of_dvd (P : Lister) (i : Nat) (hL : ∀ m, 0 < P.L m) (hd : ∀ m, fullR P.facts i m ∣ P.L m) :
    ∀ k, k ≤ P.facts.length → inner P i k (partR P i k) = (fullR P.facts i, 0, true)
  | 0, _ => by rw [partR_zero]; rfl
  | k + 1, hk => by
    rw [inner_part P i (by omega)]
    have h1 := (partR_dvd P i (dig i k) k (by omega)).trans (hd (dig i k))
    rw [if_pos ⟨h1, Nat.le_of_dvd (hL _) h1⟩]
    exact inner_of_dvd P i hL hd k (by omega)

/-- what makes a combination fail depends only on the digits from the failing one -/
theorem inner_congr (P : Lister) {i i' j : Nat} (e : i / 4 ^ j = i' / 4 ^ j) : ∀ k, k ≤ P.facts.length →
    (inner P i k (partR P i k)).2.1 = j + 1 → inner P i' k (partR P i' k) = inner P i k (partR P i k)
  | 0, _, h => by simp [inner] at h
  | k + 1, hk, h => by
    rw [inner_part P i (by omega)] at h ⊢
    rw [inner_part P i' (by omega)]
    have up : ∀ {q}, j ≤ q → i' / 4 ^ q = i / 4 ^ q := by
      intro q hq
      obtain ⟨d, rfl⟩ := Nat.exists_eq_add_of_le hq
      rw [Nat.pow_add, ← Nat.div_div_eq_div_mul, ← Nat.div_div_eq_div_mul, e]
    have jk : j ≤ k := by
      split at h
      · have : ∀ q, q ≤ P.facts.length → (inner P i q (partR P i q)).2.1 ≤ q := by
          intro q
          induction q with
          | zero => intro _; simp [inner]
          | succ q ih =>
            intro hq
            rw [inner_part P i (by omega)]
            split
            · have := ih (by omega); omega
            · simp
        have := this k (by omega)
        omega
      · simp at h; omega
    have e1 := partR_congr P (up jk)
    have e2 : dig i' k = dig i k := by unfold dig; simp only [up jk]
    rw [e1, e2]
    split
    · rename_i hc
      rw [if_pos hc] at h
      have := inner_congr P e k (by omega) h
      rw [e1] at this; exact this
    · rfl

theorem inner_top (P : Lister) (i : Nat) : inner P i P.facts.length (fun _ => 1) = inner P i P.facts.length (partR P i P.facts.length) := by
  rw [partR_top]

/-! ## combinations -/

/-- the grid of ranks of a combination -/
def gridOf (P : Lister) (i : Nat) : C4 := if P.factorizeRank then fullR P.facts i else fun m => P.L m / fullR P.facts i m

/-- condition on the local sizes -/
def LocalOk (L R : C4) : Prop := (∀ m, (L m / R m) % 2 = 0) ∧ ∃ m, (L m / R m) % 4 = 0

theorem finish_eq (P : Lister) (i : Nat) : (finish P (fullR P.facts i)).1 = gridOf P i ∧
    ((finish P (fullR P.facts i)).2 = true ↔ LocalOk P.L (gridOf P i)) := by
  refine ⟨by unfold finish gridOf; rfl, ?_⟩
  have : ∀ R' : C4, (([(0 : Dir), 1, 2, 3].foldl (fun v mu => v && decide ((P.L mu / R' mu) % 2 = 0)) true) &&
      ([(0 : Dir), 1, 2, 3].foldl (fun v mu => v || decide ((P.L mu / R' mu) % 4 = 0)) false)) = true ↔ LocalOk P.L R' := by
    intro R'
    simp only [List.foldl_cons, List.foldl_nil, Bool.true_and, Bool.false_or, Bool.and_eq_true, Bool.or_eq_true, decide_eq_true_eq, LocalOk]
    constructor
    · rintro ⟨⟨⟨⟨h0, h1⟩, h2⟩, h3⟩, h⟩
      refine ⟨fun m => by fin_cases m <;> assumption, ?_⟩
      rcases h with ((h | h) | h) | h
      · exact ⟨_, h⟩
      · exact ⟨_, h⟩
      · exact ⟨_, h⟩
      · exact ⟨_, h⟩
    · rintro ⟨h, m, hm⟩
      refine ⟨⟨⟨⟨h 0, h 1⟩, h 2⟩, h 3⟩, ?_⟩
      fin_cases m
      · exact .inl (.inl (.inl hm))
      · exact .inl (.inl (.inr hm))
      · exact .inl (.inr hm)
      · exact .inr hm
  exact this _

/-- validity of a combination -/
def ValidC (P : Lister) (i : Nat) : Prop := (combo P i).2.2 = true

theorem combo_of_inner {P : Lister} {i : Nat} {R : C4} {k : Nat} {b : Bool} (h : inner P i P.facts.length (fun _ => 1) = (R, k, b)) :
    combo P i = if b then ((finish P R).1, k, (finish P R).2) else (R, k, false) := by
  unfold combo; rw [h]; cases b <;> rfl

theorem validC_iff (P : Lister) (hL : ∀ m, 0 < P.L m) (i : Nat) :
    ValidC P i ↔ (∀ m, fullR P.facts i m ∣ P.L m) ∧ LocalOk P.L (gridOf P i) := by
  constructor
  · intro h
    unfold ValidC at h
    rcases hh : inner P i P.facts.length (fun _ => 1) with ⟨R, k, b⟩
    rw [combo_of_inner hh] at h
    cases b with
    | false => simp at h
    | true =>
      have := inner_valid P i P.facts.length (Nat.le_refl _) (by rw [partR_top]; intro m; exact Nat.one_dvd _) (by rw [← inner_top, hh])
      rw [← inner_top, hh] at this
      have e : R = fullR P.facts i := by have := this.1; simp at this; exact this.1
      subst e
      simp only [if_true] at h
      exact ⟨this.2, (finish_eq P i).2.1 h⟩
  · rintro ⟨h1, h2⟩
    unfold ValidC
    have hh : inner P i P.facts.length (fun _ => 1) = (fullR P.facts i, 0, true) := by
      rw [inner_top]; exact inner_of_dvd P i hL h1 _ (Nat.le_refl _)
    rw [combo_of_inner hh]
    exact (finish_eq P i).2.2 h2

theorem combo_valid {P : Lister} {i : Nat} (h : ValidC P i) : (combo P i).1 = gridOf P i ∧ (combo P i).2.1 = 0 := by
  unfold ValidC at h
  rcases hh : inner P i P.facts.length (fun _ => 1) with ⟨R, k, b⟩
  rw [combo_of_inner hh] at h ⊢
  cases b with
  | false => simp at h
  | true =>
    have := inner_valid P i P.facts.length (Nat.le_refl _) (by rw [partR_top]; intro m; exact Nat.one_dvd _) (by rw [← inner_top, hh])
    rw [← inner_top, hh] at this
    have e := this.1
    simp only [Prod.mk.injEq, and_true] at e
    obtain ⟨rfl, rfl⟩ := e
    simp only [if_true]
    exact ⟨(finish_eq P i).1, trivial⟩

theorem combo_congr {P : Lister} {i i' j : Nat} (e : i / 4 ^ j = i' / 4 ^ j) (h : (combo P i).2.1 = j + 1) : combo P i' = combo P i := by
  rcases hh : inner P i P.facts.length (fun _ => 1) with ⟨R, k, b⟩
  have hk : k = j + 1 := by
    rw [combo_of_inner hh] at h
    cases b <;> simpa using h
  have : inner P i' P.facts.length (fun _ => 1) = inner P i P.facts.length (fun _ => 1) := by
    rw [inner_top, inner_top]
    exact inner_congr P e _ (Nat.le_refl _) (by rw [← inner_top, hh]; exact hk)
  unfold combo; rw [this]

theorem advance_eq (P : Lister) (i : Nat) : advance P i = i + skip (combo P i).2.1 := by
  unfold advance
  by_cases h : (combo P i).2.2 = true
  · rw [if_pos h, (combo_valid h).2]; rfl
  · rw [if_neg h]

/-! ## the scan -/

/-- combinations reached by the scan are aligned to the step taken from them -/
def Aligned (P : Lister) (i : Nat) : Prop := skip (combo P i).2.1 ∣ i

theorem skip_eq (k : Nat) : ∃ e, skip k = 4 ^ e ∧ (k ≤ 2 → e = 0) ∧ (2 < k → e = k - 2) := by
  unfold skip
  by_cases h : k > 2
  · exact ⟨k - 2, by rw [if_pos h], by omega, by omega⟩
  · exact ⟨0, by rw [if_neg h]; rfl, by omega, by omega⟩

/-- no combination between two visited ones is valid -/
theorem not_valid_between {P : Lister} {i i' : Nat} (ha : Aligned P i) (h1 : i < i') (h2 : i' < advance P i) : ¬ ValidC P i' := by
  rw [advance_eq] at h2
  obtain ⟨e, he, h0, hk⟩ := skip_eq (combo P i).2.1
  unfold Aligned at ha
  rw [he] at ha h2
  have k2 : 2 < (combo P i).2.1 := by
    by_contra hle
    rw [h0 (by omega)] at h2; simp at h2; omega
  have ee := hk k2
  obtain ⟨q, rfl⟩ := ha
  have p : 0 < 4 ^ e := Nat.pow_pos (by decide)
  have d1 : (4 ^ e * q) / 4 ^ e = q := Nat.mul_div_cancel_left _ p
  have d2 : i' / 4 ^ e = q := by
    rw [Nat.div_eq_iff p]
    have : 4 ^ e * q = q * 4 ^ e := Nat.mul_comm _ _
    omega
  have := combo_congr (P := P) (i := 4 ^ e * q) (i' := i') (j := e + 1)
    (by rw [Nat.pow_succ, ← Nat.div_div_eq_div_mul, ← Nat.div_div_eq_div_mul, d1, d2]) (by omega)
  intro hv
  have h3 := (combo_valid hv).2
  rw [this] at h3
  omega

theorem aligned_advance {P : Lister} {i : Nat} (ha : Aligned P i) : Aligned P (advance P i) := by
  obtain ⟨e, he, h0, hk⟩ := skip_eq (combo P i).2.1
  obtain ⟨e1, he1, h01, hk1⟩ := skip_eq (combo P (advance P i)).2.1
  unfold Aligned at ha ⊢
  rw [he1]
  rw [he] at ha
  have adv : advance P i = i + 4 ^ e := by rw [advance_eq, he]
  have hd : 4 ^ e ∣ advance P i := by rw [adv]; exact Nat.dvd_add ha (Nat.dvd_refl _)
  by_cases hle : e1 ≤ e
  · exact (Nat.pow_dvd_pow 4 hle).trans hd
  · have k1 : 2 < (combo P (advance P i)).2.1 := by
      by_contra h; have := h01 (by omega); omega
    have k1e := hk1 k1
    have hne : i / 4 ^ (e1 + 1) ≠ advance P i / 4 ^ (e1 + 1) := by
      intro h
      have := combo_congr (P := P) (i := advance P i) (i' := i) (j := e1 + 1) h.symm (by omega)
      rw [this] at h0 hk
      have := hk (by omega)
      omega
    -- a multiple of the larger power lies strictly after i and not after the next combination
    have p : 0 < 4 ^ (e1 + 1) := Nat.pow_pos (by decide)
    have lt : i / 4 ^ (e1 + 1) < advance P i / 4 ^ (e1 + 1) := by
      have : i / 4 ^ (e1 + 1) ≤ advance P i / 4 ^ (e1 + 1) := Nat.div_le_div_right (by omega)
      omega
    have lo : i < advance P i / 4 ^ (e1 + 1) * 4 ^ (e1 + 1) := (Nat.div_lt_iff_lt_mul p).1 lt
    have hi : advance P i / 4 ^ (e1 + 1) * 4 ^ (e1 + 1) ≤ advance P i := Nat.div_mul_le_self _ _
    have pd : 4 ^ e ∣ 4 ^ (e1 + 1) := Nat.pow_dvd_pow 4 (by omega)
    obtain ⟨a, ha⟩ := ha
    obtain ⟨b, hb⟩ : 4 ^ e ∣ advance P i / 4 ^ (e1 + 1) * 4 ^ (e1 + 1) := pd.mul_left _
    have eq : advance P i = advance P i / 4 ^ (e1 + 1) * 4 ^ (e1 + 1) := by
      have q : 0 < 4 ^ e := Nat.pow_pos (by decide)
      rw [hb, ha] at lo
      have ab : a < b := Nat.lt_of_mul_lt_mul_left lo
      have : 4 ^ e * (a + 1) ≤ 4 ^ e * b := Nat.mul_le_mul_left _ ab
      rw [Nat.mul_add] at this
      rw [← hb] at this
      omega
    rw [eq]
    exact (Nat.pow_dvd_pow 4 (by omega : e1 ≤ e1 + 1)).trans (Nat.dvd_mul_left _ _)

/-- what a call finds -/
theorem findNext_spec (P : Lister) (old : List C4) : ∀ (n i : Nat), P.ncombo - i ≤ n → Aligned P i → i < P.ncombo →
    (∃ i', findNext P i old = (i', some (gridOf P i')) ∧ i ≤ i' ∧ i' < P.ncombo ∧ ValidC P i' ∧ gridOf P i' ∉ old ∧ Aligned P i' ∧
      ∀ k, i ≤ k → k < i' → ValidC P k → gridOf P k ∈ old) ∨
    (∃ i', findNext P i old = (i', none) ∧ ∀ k, i ≤ k → k < P.ncombo → ValidC P k → gridOf P k ∈ old) := by
  intro n
  induction n with
  | zero => intro i h _ hi; omega
  | succ n ih =>
    intro i h ha hi
    rw [findNext]
    by_cases hc : (combo P i).2.2 = true ∧ (combo P i).1 ∉ old
    · rw [if_pos hc]
      have e := (combo_valid hc.1).1
      rw [e] at hc ⊢
      exact .inl ⟨i, rfl, Nat.le_refl _, hi, hc.1, hc.2, ha, fun k h1 h2 => by omega⟩
    · rw [if_neg hc]
      have self : ValidC P i → gridOf P i ∈ old := by
        intro hv
        by_contra hn
        exact hc ⟨hv, by rw [(combo_valid hv).1]; exact hn⟩
      have hlt := lt_advance P i
      have before : ∀ k, i ≤ k → k < advance P i → ValidC P k → gridOf P k ∈ old := by
        intro k h1 h2 hv
        rcases Nat.eq_or_lt_of_le h1 with rfl | h1
        · exact self hv
        · exact absurd hv (not_valid_between ha h1 h2)
      by_cases hi' : advance P i < P.ncombo
      · rw [if_pos hi']
        rcases ih (advance P i) (by omega) (aligned_advance ha) hi' with ⟨i', e, h1, h2, h3, h4, h5, h6⟩ | ⟨i', e, h1⟩
        · refine .inl ⟨i', e, by omega, h2, h3, h4, h5, ?_⟩
          intro k k1 k2 hv
          rcases Nat.lt_or_ge k (advance P i) with hk | hk
          · exact before k k1 hk hv
          · exact h6 k hk k2 hv
        · refine .inr ⟨i', e, ?_⟩
          intro k k1 k2 hv
          rcases Nat.lt_or_ge k (advance P i) with hk | hk
          · exact before k k1 hk hv
          · exact h1 k hk k2 hv
      · rw [if_neg hi']
        exact .inr ⟨_, rfl, fun k k1 k2 hv => before k k1 (by omega) hv⟩

theorem aligned_zero (P : Lister) : Aligned P 0 := Nat.dvd_zero _

/-- the champion after a list of partitions, the last considered first -/
def champOf (t : Torus) (L : C4) : List C4 → Option Champ
  | [] => none
  | R :: l => consider t L (champOf t L l) R

theorem mainLoop_spec (t : Torus) (P : Lister) : ∀ (fuel i : Nat) (old : List C4), i < P.ncombo → Aligned P i →
    (P.ncombo - i ≤ fuel ∧ (ValidC P i → gridOf P i ∈ old) ∨ P.ncombo - i + 1 ≤ fuel) →
    old.Nodup → (∀ R ∈ old, ∃ k < P.ncombo, ValidC P k ∧ gridOf P k = R) → (∀ k < i, ValidC P k → gridOf P k ∈ old) →
    ∃ l, mainLoop t P fuel i old (champOf t P.L old) = some (l, champOf t P.L l) ∧ l.Nodup ∧
      ∀ R, R ∈ l ↔ ∃ k < P.ncombo, ValidC P k ∧ gridOf P k = R := by
  intro fuel
  induction fuel with
  | zero => intro i old hi _ hf; omega
  | succ fuel ih =>
    intro i old hi ha hf hn hs hb
    unfold mainLoop
    rcases findNext_spec P old _ i (Nat.le_refl _) ha hi with ⟨i', e, h1, h2, h3, h4, h5, h6⟩ | ⟨i', e, h1⟩
    · rw [e]
      dsimp only
      have hlt : (ValidC P i → gridOf P i ∈ old) → i < i' := by
        intro hv
        rcases Nat.eq_or_lt_of_le h1 with rfl | h
        · exact absurd (hv h3) h4
        · exact h
      refine ih i' (gridOf P i' :: old) h2 h5 ?_ (List.nodup_cons.2 ⟨h4, hn⟩) ?_ ?_
      · left
        refine ⟨?_, fun _ => by simp⟩
        rcases hf with ⟨hf, hv⟩ | hf
        · have := hlt hv; omega
        · omega
      · intro R hR
        rcases List.mem_cons.1 hR with rfl | hR
        · exact ⟨i', h2, h3, rfl⟩
        · exact hs R hR
      · intro k hk hv
        refine List.mem_cons_of_mem _ ?_
        rcases Nat.lt_or_ge k i with hki | hki
        · exact hb k hki hv
        · exact h6 k hki hk hv
    · rw [e]
      refine ⟨old, rfl, hn, ?_⟩
      intro R
      refine ⟨hs R, ?_⟩
      rintro ⟨k, hk, hv, rfl⟩
      rcases Nat.lt_or_ge k i with hki | hki
      · exact hb k hki hv
      · exact h1 k hki hk hv

/-! ## which grids -/

theorem fullR_prod : ∀ (fs : List Nat) (i : Nat), rankN (fullR fs i) = fs.prod
  | [], i => by simp [fullR, rankN]
  | f :: fs, i => by
    have ih := fullR_prod fs (i / 4)
    rw [List.prod_cons, ← ih]
    have hm : i % 4 < 4 := Nat.mod_lt _ (by decide)
    unfold rankN
    simp only [fullR]
    have : i % 4 = 0 ∨ i % 4 = 1 ∨ i % 4 = 2 ∨ i % 4 = 3 := by omega
    rcases this with h | h | h | h <;> rw [h] <;> simp <;> ring

/-- with prime factors every factorization of their product in four factors is the grid of a combination -/
theorem fullR_surj : ∀ (fs : List Nat), (∀ p ∈ fs, p.Prime) → ∀ X : C4, rankN X = fs.prod → ∃ i < 4 ^ fs.length, fullR fs i = X
  | [], _, X, h => by
    refine ⟨0, by simp, ?_⟩
    unfold rankN at h
    simp only [List.prod_nil] at h
    have h3 := Nat.eq_one_of_mul_eq_one_right h
    have h' := Nat.eq_one_of_mul_eq_one_left h
    have d3 : X 3 = 1 := Nat.eq_one_of_mul_eq_one_left h
    have e3 : X 0 * X 1 * X 2 = 1 := Nat.eq_one_of_mul_eq_one_right h
    have d2 : X 2 = 1 := Nat.eq_one_of_mul_eq_one_left e3
    have e2 : X 0 * X 1 = 1 := Nat.eq_one_of_mul_eq_one_right e3
    have d1 : X 1 = 1 := Nat.eq_one_of_mul_eq_one_left e2
    have d0 : X 0 = 1 := Nat.eq_one_of_mul_eq_one_right e2
    funext m
    fin_cases m
    · exact d0.symm
    · exact d1.symm
    · exact d2.symm
    · exact d3.symm
  | f :: fs, hp, X, h => by
    have pf := hp f (by simp)
    have hd : f ∣ rankN X := by rw [h, List.prod_cons]; exact Nat.dvd_mul_right _ _
    have : ∃ m, f ∣ X m := by
      unfold rankN at hd
      rcases (Nat.Prime.dvd_mul pf).1 hd with hd | hd
      · rcases (Nat.Prime.dvd_mul pf).1 hd with hd | hd
        · rcases (Nat.Prime.dvd_mul pf).1 hd with hd | hd
          · exact ⟨_, hd⟩
          · exact ⟨_, hd⟩
        · exact ⟨_, hd⟩
      · exact ⟨_, hd⟩
    obtain ⟨m, x, hx⟩ := this
    have fpos := pf.pos
    have hN : rankN (Function.update X m x) = fs.prod := by
      have : rankN X = f * rankN (Function.update X m x) := by
        unfold rankN
        fin_cases m <;> simp [Function.update_apply] at hx ⊢ <;> rw [hx] <;> ring
      rw [this, List.prod_cons] at h
      exact Nat.eq_of_mul_eq_mul_left fpos h
    obtain ⟨i, hi, e⟩ := fullR_surj fs (fun p hp' => hp p (by simp [hp'])) _ hN
    refine ⟨m.val + 4 * i, ?_, ?_⟩
    · have := m.isLt
      rw [List.length_cons, Nat.pow_succ]; omega
    · have hm := m.isLt
      have e1 : (m.val + 4 * i) % 4 = m.val := by omega
      have e2 : (m.val + 4 * i) / 4 = i := by omega
      funext k
      simp only [fullR, e1, e2, e]
      by_cases hk : k = m
      · subst hk; simp [hx, Nat.mul_comm]
      · rw [if_neg (fun h => hk (Fin.ext h)), Function.update_of_ne hk]

end Nissa.Part
