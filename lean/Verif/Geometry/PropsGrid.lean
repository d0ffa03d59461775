/- C16: the choice of the grid of ranks. -/
import Verif.Geometry.Grid
import Mathlib.Algebra.BigOperators.Ring.Finset
import Mathlib.Algebra.BigOperators.Associated
import Mathlib.Tactic.FinCases
set_option linter.all false

namespace Nissa.Grid
open Nissa.Lx (Coords Dir)

/-- product of the factors given to a direction -/
def prodAt (fact : Nat → Nat) (ic : Nat) : Nat → Coords
  | 0, _ => 1
  | k + 1, mu => prodAt fact ic k mu * if digit ic k = mu then fact k else 1

theorem assign_none {L : Coords} {fact : Nat → Nat} {ic k : Nat} {R R' : Coords} (h : assign L fact ic k R = (R', none)) :
    (∀ mu, R' mu = R mu * prodAt fact ic k mu) ∧ ((∀ mu, R mu ∣ L mu) → ∀ mu, R' mu ∣ L mu) := by
  induction k generalizing R with
  | zero =>
    simp only [assign, Prod.mk.injEq, and_true] at h
    subst h
    exact ⟨fun mu => by simp [prodAt], fun h => h⟩
  | succ k ih =>
    simp only [assign] at h
    split at h
    · rename_i hc
      obtain ⟨a, b⟩ := ih h
      refine ⟨fun mu => ?_, fun hR => b (fun mu => ?_)⟩
      · rw [a mu, prodAt]
        by_cases hm : digit ic k = mu
        · subst hm; rw [Function.update_self, if_pos rfl]; ring
        · rw [Function.update_of_ne (Ne.symm hm), if_neg hm]; ring
      · by_cases hm : mu = digit ic k
        · rw [hm]; exact Nat.dvd_of_mod_eq_zero hc.1
        · rw [Function.update_of_ne hm]; exact hR mu
    · simp at h

theorem assign_ok {L : Coords} (hL : ∀ mu, 0 < L mu) {fact : Nat → Nat} {ic k : Nat} {R : Coords}
    (h : ∀ mu, R mu * prodAt fact ic k mu ∣ L mu) : assign L fact ic k R = (fun mu => R mu * prodAt fact ic k mu, none) := by
  induction k generalizing R with
  | zero => simp [assign, prodAt]
  | succ k ih =>
    simp only [assign]
    have e : ∀ mu, Function.update R (digit ic k) (R (digit ic k) * fact k) mu * prodAt fact ic k mu = R mu * prodAt fact ic (k + 1) mu := by
      intro mu
      rw [prodAt]
      by_cases hm : digit ic k = mu
      · subst hm; rw [Function.update_self, if_pos rfl]; ring
      · rw [Function.update_of_ne (Ne.symm hm), if_neg hm]; ring
    have hd : Function.update R (digit ic k) (R (digit ic k) * fact k) (digit ic k) ∣ L (digit ic k) := by
      have := h (digit ic k)
      rw [← e] at this
      exact Nat.dvd_trans (Nat.dvd_mul_right _ _) this
    rw [if_pos ⟨Nat.mod_eq_zero_of_dvd hd, Nat.le_of_dvd (hL _) hd⟩, ih (fun mu => by rw [e]; exact h mu)]
    congr 1
    funext mu; exact e mu

theorem assign_some {L : Coords} {fact : Nat → Nat} {ic ic' k j : Nat} {R R' : Coords} (h : assign L fact ic k R = (R', some j))
    (hd : ∀ i, j ≤ i → digit ic' i = digit ic i) : assign L fact ic' k R = (R', some j) := by
  induction k generalizing R with
  | zero => simp [assign] at h
  | succ k ih =>
    have hj : j < k + 1 := by
      clear ih hd
      have : ∀ k R, assign L fact ic k R = (R', some j) → j < k := by
        intro k
        induction k with
        | zero => intro R h; simp [assign] at h
        | succ k ih =>
          intro R h
          simp only [assign] at h
          split at h
          · have := ih _ h; omega
          · simp at h; omega
      exact this _ _ h
    simp only [assign] at h ⊢
    rw [hd k (by omega)]
    split at h
    · rename_i hc; rw [if_pos hc]; exact ih h
    · rename_i hc; rw [if_neg hc]; exact h

theorem digit_congr {a b j : Nat} (h : a / 4 ^ j = b / 4 ^ j) : ∀ i, j ≤ i → digit a i = digit b i := by
  intro i hi
  have e : ∀ x, x / 4 ^ i = x / 4 ^ j / 4 ^ (i - j) := by
    intro x; rw [Nat.div_div_eq_div_mul, ← Nat.pow_add, Nat.add_sub_cancel' hi]
  unfold digit
  congr 1
  rw [e a, e b, h]

theorem combo_congr {p : Pars} {a b j : Nat} (h : (combo p a).2 = some j) (he : b / 4 ^ j = a / 4 ^ j) : (combo p b).2 = some j := by
  unfold combo at *
  have : assign p.L p.fact a p.nFact (fun _ => 1) = ((assign p.L p.fact a p.nFact (fun _ => 1)).1, some j) := by rw [← h]
  rw [assign_some this (digit_congr he)]

/-- exponent of the jump -/
def jump (p : Pars) (ic : Nat) : Nat := match (combo p ic).2 with | none => 0 | some j => j - 1

theorem skip_eq (p : Pars) (ic : Nat) : skip p ic = 4 ^ jump p ic := by
  unfold skip jump; cases h : (combo p ic).2 <;> simp

/-- alignment invariant -/
def Aligned (p : Pars) (v : Nat) : Prop := 4 ^ jump p v ∣ v

/-- elements in the middle of a jump fail in the same way -/
theorem skipped {p : Pars} {v x : Nat} (ha : Aligned p v) (h1 : v < x) (h2 : x < v + skip p v) : (combo p x).2 ≠ none := by
  rw [skip_eq] at h2
  cases hf : (combo p v).2 with
  | none => simp only [jump, hf] at h2; simp at h2; omega
  | some j =>
    have hj : jump p v = j - 1 := by simp [jump, hf]
    unfold Aligned at ha
    rw [hj] at ha h2
    have hj1 : 0 < j := by
      rcases Nat.eq_zero_or_pos j with h | h
      · subst h; simp at h2; omega
      · exact h
    have he : x / 4 ^ j = v / 4 ^ j := by
      obtain ⟨q, hq⟩ := ha
      have h4 : 4 ^ j = 4 ^ (j - 1) * 4 := by rw [← Nat.pow_succ]; congr 1; omega
      have hp : 0 < 4 ^ (j - 1) := Nat.pow_pos (by omega)
      have e1 : ∀ y, y / 4 ^ j = y / 4 ^ (j - 1) / 4 := by intro y; rw [Nat.div_div_eq_div_mul, ← h4]
      have e2 : x / 4 ^ (j - 1) = q := by
        rw [Nat.div_eq_iff hp]
        rw [Nat.mul_comm] at hq
        constructor <;> omega
      have e3 : v / 4 ^ (j - 1) = q := by rw [hq]; exact Nat.mul_div_cancel_left _ hp
      rw [e1, e1, e2, e3]
    rw [combo_congr hf he]; simp

theorem aligned_next {p : Pars} {v : Nat} (ha : Aligned p v) : Aligned p (v + skip p v) := by
  rw [skip_eq]
  unfold Aligned at ha ⊢
  generalize hw : v + 4 ^ jump p v = w
  have hdw : 4 ^ jump p v ∣ w := by rw [← hw]; exact Nat.dvd_add ha (Nat.dvd_refl _)
  cases hf : (combo p w).2 with
  | none => simp [jump, hf]
  | some j =>
    have hj : jump p w = j - 1 := by simp [jump, hf]
    rw [hj]
    by_cases hle : j - 1 ≤ jump p v
    · exact Nat.dvd_trans (Nat.pow_dvd_pow 4 hle) hdw
    · -- block of size 4^j containing w
      have hjv : jump p v + 1 < j := by omega
      have hpj : 0 < 4 ^ j := Nat.pow_pos (by omega)
      have hbw := Nat.div_add_mod w (4 ^ j)
      have hmw := Nat.mod_lt w hpj
      have hvB : v < 4 ^ j * (w / 4 ^ j) := by
        by_contra hge
        have he : v / 4 ^ j = w / 4 ^ j := by
          apply Nat.le_antisymm
          · exact Nat.div_le_div_right (by omega)
          · rw [Nat.le_div_iff_mul_le hpj, Nat.mul_comm]; omega
        have := combo_congr hf he
        have : jump p v = j - 1 := by simp [jump, this]
        omega
      have hdB : 4 ^ jump p v ∣ 4 ^ j * (w / 4 ^ j) := Nat.dvd_trans (Nat.pow_dvd_pow 4 (by omega)) (Nat.dvd_mul_right _ _)
      have hB : 4 ^ j * (w / 4 ^ j) = w := by
        obtain ⟨a, ha'⟩ := hdB
        obtain ⟨b, hb'⟩ := ha
        have hp : 0 < 4 ^ jump p v := Nat.pow_pos (by omega)
        have hba : b < a := by
          by_contra hh
          have := Nat.mul_le_mul_left (4 ^ jump p v) (Nat.le_of_not_lt hh)
          omega
        have := Nat.mul_le_mul_left (4 ^ jump p v) hba
        rw [Nat.mul_succ] at this
        omega
      rw [← hB]
      exact Nat.dvd_trans (Nat.pow_dvd_pow 4 (by omega)) (Nat.dvd_mul_right _ _)

/-- surface used in the search -/
def surfOf (p : Pars) (R : Coords) : Nat := p.LV - bulkRecipLatVolume R p.L

theorem improve_spec (p : Pars) (b : Option Best) (R : Coords) : ∃ b', improve p b R = some b' ∧ b'.surf ≤ surfOf p R ∧
    (∀ c, b = some c → b'.surf ≤ c.surf) ∧ ((b'.R = R ∧ b'.surf = surfOf p R) ∨ b = some b') := by
  unfold improve
  cases b with
  | none => exact ⟨_, rfl, Nat.le_refl _, by simp, Or.inl ⟨rfl, rfl⟩⟩
  | some c =>
    simp only
    have hs : p.LV - bulkRecipLatVolume R p.L = surfOf p R := rfl
    rw [hs]
    split
    · exact ⟨_, rfl, Nat.le_refl _, fun c' h => by cases h; simp only; omega, Or.inl ⟨rfl, rfl⟩⟩
    · split
      · exact ⟨_, rfl, Nat.le_refl _, fun c' h => by cases h; simp only; omega, Or.inl ⟨rfl, rfl⟩⟩
      · exact ⟨c, rfl, by omega, fun c' h => by cases h; exact Nat.le_refl _, Or.inr rfl⟩

/-- invariant of the search: everything before `ic` has been considered -/
structure SInv (p : Pars) (ic : Nat) (b : Option Best) : Prop where
  opt : ∀ x, x < ic → validCombo p x → ∃ c, b = some c ∧ c.surf ≤ surfOf p (toRanks p (combo p x).1)
  real : ∀ c, b = some c → ∃ x, validCombo p x ∧ c.R = toRanks p (combo p x).1 ∧ c.surf = surfOf p c.R

theorem search_spec (p : Pars) (ncombo ic : Nat) (b : Option Best) (ha : Aligned p ic) (hi : SInv p ic b) : SInv p ncombo (search p ncombo ic b) := by
  induction ic, b using search.induct (p := p) (ncombo := ncombo) with
  | case1 ic b hv b' hlt ih =>
    rw [search, if_pos hv]
    simp only [if_pos hlt]
    refine ih ?_ ?_
    · have := aligned_next ha
      have h1 : skip p ic = 1 := by simp [skip, hv.1]
      rwa [h1] at this
    · obtain ⟨c, e1, e2, e3, e4⟩ := improve_spec p b (toRanks p (combo p ic).1)
      constructor
      · intro x hx hvx
        rcases Nat.lt_or_ge x ic with h | h
        · obtain ⟨d, f1, f2⟩ := hi.opt x h hvx
          exact ⟨c, e1, Nat.le_trans (e3 d f1) f2⟩
        · have : x = ic := by omega
          subst this; exact ⟨c, e1, e2⟩
      · intro d hd
        rw [show b' = some c from e1] at hd
        cases hd
        rcases e4 with ⟨f1, f2⟩ | f
        · exact ⟨ic, hv, f1, by rw [f1]; exact f2⟩
        · exact hi.real _ f
  | case2 ic b hv hge =>
    rw [search, if_pos hv]
    simp only [if_neg hge]
    obtain ⟨c, e1, e2, e3, e4⟩ := improve_spec p b (toRanks p (combo p ic).1)
    constructor
    · intro x hx hvx
      rcases Nat.lt_or_ge x ic with h | h
      · obtain ⟨d, f1, f2⟩ := hi.opt x h hvx
        exact ⟨c, e1, Nat.le_trans (e3 d f1) f2⟩
      · have : x = ic := by omega
        subst this; exact ⟨c, e1, e2⟩
    · intro d hd
      rw [e1] at hd
      cases hd
      rcases e4 with ⟨f1, f2⟩ | f
      · exact ⟨ic, hv, f1, by rw [f1]; exact f2⟩
      · exact hi.real _ f
  | case3 ic b hv hlt ih =>
    rw [search, if_neg hv, if_pos hlt]
    refine ih (aligned_next ha) ⟨fun x hx hvx => ?_, hi.real⟩
    rcases Nat.lt_trichotomy x ic with h | h | h
    · exact hi.opt x h hvx
    · subst h; exact absurd hvx hv
    · exact absurd hvx.1 (skipped ha h hx)
  | case4 ic b hv hge =>
    rw [search, if_neg hv, if_neg hge]
    refine ⟨fun x hx hvx => ?_, hi.real⟩
    rcases Nat.lt_trichotomy x ic with h | h | h
    · exact hi.opt x h hvx
    · subst h; exact absurd hvx hv
    · exact absurd hvx.1 (skipped ha h (by omega))

theorem prod4 (R : Coords) : ∏ mu, R mu = R 0 * R 1 * R 2 * R 3 := by rw [Fin.prod_univ_four]

theorem prodAt_prod (fact : Nat → Nat) (ic k : Nat) : ∏ mu, prodAt fact ic k mu = ∏ i ∈ Finset.range k, fact i := by
  induction k with
  | zero => simp [prodAt]
  | succ k ih =>
    simp only [prodAt]
    rw [Finset.prod_mul_distrib, ih, Finset.prod_range_succ]
    congr 1
    rw [Finset.prod_ite_eq Finset.univ (digit ic k) (fun _ => fact k)]
    simp

theorem prodAt_congr {fact : Nat → Nat} {a b k : Nat} (h : ∀ i, i < k → digit a i = digit b i) (mu : Dir) : prodAt fact a k mu = prodAt fact b k mu := by
  induction k with
  | zero => rfl
  | succ k ih => rw [prodAt, prodAt, ih (fun i hi => h i (by omega)), h k (by omega)]

/-- every decomposition of the product over the directions is attained -/
theorem exists_combo {fact : Nat → Nat} (n : Nat) (hp : ∀ i, i < n → (fact i).Prime) (R : Coords) (hR : ∏ i ∈ Finset.range n, fact i = ∏ mu, R mu) :
    ∃ ic, ic < 4 ^ n ∧ ∀ mu, prodAt fact ic n mu = R mu := by
  induction n generalizing R with
  | zero =>
    refine ⟨0, by simp, fun mu => ?_⟩
    rw [prodAt]
    rw [Finset.prod_range_zero] at hR
    have : R mu ∣ 1 := by rw [hR]; exact Finset.dvd_prod_of_mem R (Finset.mem_univ mu)
    exact (Nat.dvd_one.1 this).symm
  | succ n ih =>
    have hpn := hp n (by omega)
    rw [Finset.prod_range_succ] at hR
    obtain ⟨mu, -, hmu⟩ := (Prime.dvd_finsetProd_iff hpn.prime (S := Finset.univ) R).1 (by rw [← hR]; exact Nat.dvd_mul_left _ _)
    obtain ⟨q, hq⟩ := hmu
    have hup : fact n * ∏ nu, Function.update R mu q nu = ∏ nu, R nu := by
      rw [Finset.prod_update_of_mem (Finset.mem_univ mu), ← Finset.mul_prod_erase Finset.univ R (Finset.mem_univ mu), hq, mul_assoc, Finset.erase_eq]
    obtain ⟨ic, h1, h2⟩ := ih (fun i hi => hp i (by omega)) (Function.update R mu q) (by
      have h0 : 0 < fact n := hpn.pos
      rw [← hup, Nat.mul_comm] at hR
      exact Nat.eq_of_mul_eq_mul_left h0 hR)
    refine ⟨mu.val * 4 ^ n + ic, ?_, fun nu => ?_⟩
    · have := mu.isLt
      calc mu.val * 4 ^ n + ic < mu.val * 4 ^ n + 4 ^ n := by omega
        _ = (mu.val + 1) * 4 ^ n := by ring
        _ ≤ 4 * 4 ^ n := Nat.mul_le_mul_right _ (by omega)
        _ = 4 ^ (n + 1) := by ring
    · have hd : digit (mu.val * 4 ^ n + ic) n = mu := by
        apply Fin.ext
        show (mu.val * 4 ^ n + ic) / 4 ^ n % 4 = mu.val
        rw [Nat.mul_comm, Nat.mul_add_div (Nat.pow_pos (by omega)), Nat.div_eq_of_lt h1, Nat.add_zero, Nat.mod_eq_of_lt mu.isLt]
      have hc : ∀ i, i < n → digit (mu.val * 4 ^ n + ic) i = digit ic i := by
        intro i hi
        apply Fin.ext
        show (mu.val * 4 ^ n + ic) / 4 ^ i % 4 = ic / 4 ^ i % 4
        have e : mu.val * 4 ^ n = 4 ^ i * (4 * (mu.val * 4 ^ (n - i - 1))) := by
          have : 4 ^ n = 4 ^ i * (4 * 4 ^ (n - i - 1)) := by rw [← Nat.pow_succ', ← Nat.pow_add]; congr 1; omega
          rw [this]; ring
        rw [e, Nat.mul_add_div (Nat.pow_pos (by omega)), Nat.mul_add_mod]
      rw [prodAt, prodAt_congr hc, h2, hd]
      by_cases hn : mu = nu
      · subst hn; rw [Function.update_self, if_pos rfl, hq, Nat.mul_comm]
      · rw [Function.update_of_ne (Ne.symm hn), if_neg hn, Nat.mul_one]

theorem bulkVolume_eq (X : Coords) : bulkVolume X = (X 0 - 2) * (X 1 - 2) * (X 2 - 2) * (X 3 - 2) := by
  unfold bulkVolume
  split
  · split
    · split
      · split
        · rfl
        · rw [show X 3 - 2 = 0 by omega]; ring
      · rw [show X 2 - 2 = 0 by omega]; ring
    · rw [show X 1 - 2 = 0 by omega]; ring
  · rw [show X 0 - 2 = 0 by omega]; ring

theorem prod_div {L R : Coords} (hd : ∀ mu, R mu ∣ L mu) (hp : ∀ mu, 0 < R mu) :
    (∏ mu, R mu) * ∏ mu, (L mu / R mu) = ∏ mu, L mu := by
  rw [← Finset.prod_mul_distrib]
  exact Finset.prod_congr rfl (fun mu _ => Nat.mul_div_cancel' (hd mu))

theorem pos_of_dvd {L R : Coords} (hL : ∀ mu, 0 < L mu) (hd : ∀ mu, R mu ∣ L mu) (mu : Dir) : 0 < R mu := Nat.pos_of_dvd_of_pos (hd mu) (hL mu)

theorem list_prod_getD (l : List Nat) : ∏ i ∈ Finset.range l.length, l.getD i 0 = l.prod := by
  induction l with
  | nil => rfl
  | cons a l ih =>
    rw [List.length_cons, Finset.prod_range_succ', List.prod_cons]
    simp only [List.getD_cons_zero, List.getD_cons_succ]
    rw [ih, Nat.mul_comm]

/-- the parameters handed to the search -/
def parsOf (L fix : Coords) (eo : Bool) (NR : Nat) : Pars :=
  let fLV := Nissa.Ints.factorize (vol L / NR)
  let fNR := Nissa.Ints.factorize NR
  let fr := decide (fLV.length ≥ fNR.length)
  let list := if fr then fNR else fLV
  ⟨L, fix, eo, fr, fun i => list.getD i 0, list.length, vol L / NR⟩

/-- what the valid combinations are -/
theorem valid_iff {L fix : Coords} (hL : ∀ mu, 0 < L mu) (eo : Bool) {NR : Nat} (hNR : 0 < NR) (hdv : NR ∣ vol L) :
    let p := parsOf L fix eo NR
    (∀ x, validCombo p x → Admissible L fix eo NR (toRanks p (combo p x).1)) ∧
    (∀ R, Admissible L fix eo NR R → ∃ x, x < 4 ^ p.nFact ∧ validCombo p x ∧ toRanks p (combo p x).1 = R) := by
  intro p
  have hV : 0 < vol L := Nat.mul_pos (Nat.mul_pos (Nat.mul_pos (hL 0) (hL 1)) (hL 2)) (hL 3)
  have hLV : 0 < vol L / NR := Nat.div_pos (Nat.le_of_dvd hV hdv) hNR
  have hvol : ∏ mu, L mu = vol L := prod4 L
  obtain ⟨f1, f2, -⟩ := Nissa.Ints.C26_factorize NR hNR
  obtain ⟨g1, g2, -⟩ := Nissa.Ints.C26_factorize (vol L / NR) hLV
  have hpL : p.L = L := rfl
  have hpf : p.fix = fix := rfl
  have hpe : p.eo = eo := rfl
  -- product of the factors
  have hfact : ∏ i ∈ Finset.range p.nFact, p.fact i = if p.factorizeRank then NR else vol L / NR := by
    show ∏ i ∈ Finset.range (if p.factorizeRank = true then _ else _ : List Nat).length, (if p.factorizeRank = true then _ else _ : List Nat).getD i 0 = _
    cases h : p.factorizeRank with
    | true => simp only [if_true]; rw [list_prod_getD, f1]
    | false => simp only [Bool.false_eq_true, if_false]; rw [list_prod_getD, g1]
  have hprime : ∀ i, i < p.nFact → (p.fact i).Prime := by
    show ∀ i, i < (if p.factorizeRank = true then _ else _ : List Nat).length → ((if p.factorizeRank = true then _ else _ : List Nat).getD i 0).Prime
    cases h : p.factorizeRank with
    | true =>
      simp only [if_true]
      intro i hi
      rw [List.getD_eq_getElem _ _ hi]; exact f2 _ (List.getElem_mem hi)
    | false =>
      simp only [Bool.false_eq_true, if_false]
      intro i hi
      rw [List.getD_eq_getElem _ _ hi]; exact g2 _ (List.getElem_mem hi)
  constructor
  · intro x hx
    obtain ⟨h1, h2⟩ := hx
    obtain ⟨a, b⟩ := assign_none (show assign p.L p.fact x p.nFact (fun _ => 1) = ((combo p x).1, none) by rw [← h1]; rfl)
    have hdvd := b (fun mu => Nat.one_dvd _)
    have hprod : ∏ mu, (combo p x).1 mu = if p.factorizeRank then NR else vol L / NR := by
      rw [← hfact, ← prodAt_prod p.fact x p.nFact]
      exact Finset.prod_congr rfl (fun mu _ => by rw [a mu, Nat.one_mul])
    have hpos := pos_of_dvd hL hdvd
    have hrk : (∀ mu, toRanks p (combo p x).1 mu ∣ L mu) ∧ ∏ mu, toRanks p (combo p x).1 mu = NR := by
      unfold toRanks
      cases hfr : p.factorizeRank with
      | true =>
        simp only [if_true]
        rw [hfr] at hprod
        exact ⟨hdvd, hprod⟩
      | false =>
        simp only [Bool.false_eq_true, if_false]
        refine ⟨fun mu => Nat.div_dvd_of_dvd (hdvd mu), ?_⟩
        have hq := prod_div hdvd hpos
        rw [hprod, hfr] at hq
        simp only [Bool.false_eq_true, if_false] at hq
        rw [hpL, hvol] at hq
        have h3 : vol L / NR * NR = vol L := Nat.div_mul_cancel hdv
        exact Nat.eq_of_mul_eq_mul_left hLV (hq.trans h3.symm)
    exact ⟨hrk.1, by rw [← prod4]; exact hrk.2, fun mu hm => ((h2 mu).2 hm).symm, fun he mu => (h2 mu).1 he⟩
  · intro R hR
    have hRpos := pos_of_dvd hL hR.dvd
    have hRprod : ∏ mu, R mu = NR := by rw [prod4]; exact hR.prod
    -- the grid that the search has to build
    let T : Coords := if p.factorizeRank then R else fun mu => L mu / R mu
    have hTd : ∀ mu, T mu ∣ L mu := by
      intro mu; show (if p.factorizeRank then R else fun mu => L mu / R mu) mu ∣ L mu
      split
      · exact hR.dvd mu
      · exact Nat.div_dvd_of_dvd (hR.dvd mu)
    have hTp : ∏ mu, T mu = if p.factorizeRank then NR else vol L / NR := by
      show ∏ mu, (if p.factorizeRank then R else fun mu => L mu / R mu) mu = _
      split
      · exact hRprod
      · have := prod_div hR.dvd hRpos
        rw [hRprod, hvol] at this
        rw [← this, Nat.mul_div_cancel_left _ hNR]
    obtain ⟨x, hx1, hx2⟩ := exists_combo p.nFact hprime T (by rw [hfact, hTp])
    have hc : combo p x = (T, none) := by
      unfold combo
      rw [assign_ok (L := p.L) hL (fun mu => by rw [hx2, Nat.one_mul]; exact hTd mu)]
      congr 1
      funext mu
      rw [hx2, Nat.one_mul]
    have hT : toRanks p T = R := by
      unfold toRanks
      show (if p.factorizeRank then (if p.factorizeRank then R else fun mu => L mu / R mu) else
        fun mu => L mu / (if p.factorizeRank then R else fun mu => L mu / R mu) mu) = R
      split
      · rfl
      · funext mu; exact Nat.div_div_self (hR.dvd mu) (Nat.pos_iff_ne_zero.1 (hL mu))
    refine ⟨x, hx1, ⟨by rw [hc], ?_⟩, by rw [hc]; exact hT⟩
    rw [hc, hT]
    exact fun mu => ⟨fun he => hR.even he mu, fun hf => (hR.fixed mu hf).symm⟩

/-- the surface used in the search is the geometrical one for admissible grids -/
theorem surfOf_eq {L fix : Coords} (hL : ∀ mu, 0 < L mu) {eo : Bool} {NR : Nat} (hNR : 0 < NR) {R : Coords} (hR : Admissible L fix eo NR R) :
    surfOf (parsOf L fix eo NR) R = surface L R := by
  unfold surfOf bulkRecipLatVolume surface
  rw [bulkVolume_eq]
  congr 1
  have := prod_div hR.dvd (pos_of_dvd hL hR.dvd)
  rw [prod4, prod4, prod4, hR.prod] at this
  show vol L / NR = _
  unfold vol
  rw [← this, Nat.mul_div_cancel_left _ hNR]

theorem find_eq {L fix : Coords} {eo : Bool} {NR : Nat} {r : Option Coords} (h1 : NR ≠ 1) (hV : NR ≠ vol L) (h : findMinimalSurfaceGrid L fix eo NR = some r) :
    NR ∣ vol L ∧ r = (search (parsOf L fix eo NR) (4 ^ (parsOf L fix eo NR).nFact) 0 none).map Best.R := by
  unfold findMinimalSurfaceGrid at h
  simp only at h
  by_cases c1 : eo = true ∧ vol L / NR % 16 ≠ 0
  · rw [if_pos c1] at h; cases h
  rw [if_neg c1] at h
  by_cases c2 : vol L % NR ≠ 0
  · rw [if_pos c2] at h; cases h
  rw [if_neg c2] at h
  by_cases c3 : ∃ mu, fix mu ≠ 0 ∧ (L mu % fix mu ≠ 0 ∨ L mu < (if eo = true then 2 else 1))
  · rw [if_pos c3] at h; cases h
  rw [if_neg c3] at h
  by_cases c4 : resNR NR fix < 1
  · rw [if_pos c4] at h; cases h
  rw [if_neg c4, if_neg h1, if_neg hV] at h
  refine ⟨Nat.dvd_of_mod_eq_zero (not_not.1 c2), ?_⟩
  cases h
  rfl

/-! ### C16 -/

/-- C16: with more than one rank and more than one site per rank, the grid returned divides the lattice, multiplies up to the number of
ranks, respects the directions fixed by the user and the parity of the local sides, and has the smallest surface among all such grids -/
theorem C16_grid_optimal (L fix : Coords) (eo : Bool) (NR : Nat) (hL : ∀ mu, 0 < L mu) (h0 : 0 < NR) (h1 : NR ≠ 1) (hV : NR ≠ vol L) (R : Coords)
    (h : findMinimalSurfaceGrid L fix eo NR = some (some R)) :
    Admissible L fix eo NR R ∧ ∀ R', Admissible L fix eo NR R' → surface L R ≤ surface L R' := by
  obtain ⟨hd, hr⟩ := find_eq h1 hV h
  obtain ⟨v1, v2⟩ := valid_iff (fix := fix) hL eo h0 hd
  have hs := search_spec (parsOf L fix eo NR) (4 ^ (parsOf L fix eo NR).nFact) 0 none (by unfold Aligned; exact Nat.dvd_zero _)
    ⟨fun x hx => absurd hx (by omega), fun c hc => by cases hc⟩
  obtain ⟨c, hc, hcR⟩ := Option.map_eq_some_iff.1 hr.symm
  subst hcR
  obtain ⟨x, hx1, hx2, hx3⟩ := hs.real c hc
  have ha : Admissible L fix eo NR c.R := by rw [hx2]; exact v1 x hx1
  refine ⟨ha, fun R' hR' => ?_⟩
  obtain ⟨y, hy1, hy2, hy3⟩ := v2 R' hR'
  obtain ⟨c', hc', hle⟩ := hs.opt y hy1 hy2
  rw [hc] at hc'; cases hc'
  rw [hy3] at hle
  rw [← surfOf_eq hL h0 ha, ← surfOf_eq hL h0 hR', ← hx3]
  exact hle

/-- C16: if the search does not find any grid there was none (and the grid of -1 it returns makes the initialisation crash) -/
theorem C16_none_found (L fix : Coords) (eo : Bool) (NR : Nat) (hL : ∀ mu, 0 < L mu) (h0 : 0 < NR) (h1 : NR ≠ 1) (hV : NR ≠ vol L)
    (h : findMinimalSurfaceGrid L fix eo NR = some none) : ∀ R, ¬ Admissible L fix eo NR R := by
  obtain ⟨hd, hr⟩ := find_eq h1 hV h
  obtain ⟨v1, v2⟩ := valid_iff (fix := fix) hL eo h0 hd
  have hs := search_spec (parsOf L fix eo NR) (4 ^ (parsOf L fix eo NR).nFact) 0 none (by unfold Aligned; exact Nat.dvd_zero _)
    ⟨fun x hx => absurd hx (by omega), fun c hc => by cases hc⟩
  intro R hR
  obtain ⟨y, hy1, hy2, hy3⟩ := v2 R hR
  obtain ⟨c, hc, -⟩ := hs.opt y hy1 hy2
  rw [hc] at hr
  cases hr

theorem resNR_ge (NR : Nat) (fix R : Coords) (hR : R 0 * R 1 * R 2 * R 3 = NR) (h0 : 0 < NR) (hf : ∀ mu, fix mu ≠ 0 → R mu = fix mu) : 1 ≤ resNR NR fix := by
  have step : ∀ r a b : Nat, ∀ mu, a * b ≤ r → a = R mu → b ≤ (if fix mu ≠ 0 then r / fix mu else r) := by
    intro r a b mu h1 h2
    have hpos : 0 < R mu := by
      apply Nat.pos_of_ne_zero
      intro hz
      have : NR = 0 := by
        rw [← hR]
        fin_cases mu <;> (simp at hz; simp [hz])
      omega
    split
    · rename_i hm
      rw [← hf mu hm, Nat.le_div_iff_mul_le hpos, ← h2, Nat.mul_comm]; exact h1
    · exact Nat.le_trans (Nat.le_mul_of_pos_left b (by rw [h2]; exact hpos)) h1
  unfold resNR Nissa.Lx.dirs
  simp only [List.foldl_cons, List.foldl_nil]
  have s0 := step NR (R 0) (R 1 * (R 2 * R 3)) 0 (by rw [← hR]; apply Nat.le_of_eq; ring) rfl
  have s1 := step _ (R 1) (R 2 * R 3) 1 s0 rfl
  have s2 := step _ (R 2) (R 3) 2 s1 rfl
  exact step _ (R 3) 1 3 (by rw [Nat.mul_one]; exact s2) rfl

/-- C16: the function never refuses parameters for which some grid exists -/
theorem C16_no_spurious_crash (L fix : Coords) (eo : Bool) (NR : Nat) (hL : ∀ mu, 0 < L mu) (h0 : 0 < NR) (R : Coords)
    (hR : Admissible L fix eo NR R) : ∃ G, findMinimalSurfaceGrid L fix eo NR = some (some G) := by
  have hRpos := pos_of_dvd hL hR.dvd
  have hprod := prod_div hR.dvd hRpos
  rw [prod4, prod4, prod4, hR.prod] at hprod
  have hvol : vol L = NR * ((L 0 / R 0) * (L 1 / R 1) * (L 2 / R 2) * (L 3 / R 3)) := hprod.symm
  have hdv : NR ∣ vol L := ⟨_, hvol⟩
  have c1 : ¬ (eo = true ∧ vol L / NR % 16 ≠ 0) := by
    rintro ⟨he, hn⟩
    apply hn
    rw [hvol, Nat.mul_div_cancel_left _ h0]
    obtain ⟨a, ha⟩ := Nat.dvd_of_mod_eq_zero (hR.even he 0)
    obtain ⟨b, hb⟩ := Nat.dvd_of_mod_eq_zero (hR.even he 1)
    obtain ⟨c, hc⟩ := Nat.dvd_of_mod_eq_zero (hR.even he 2)
    obtain ⟨d, hd⟩ := Nat.dvd_of_mod_eq_zero (hR.even he 3)
    rw [ha, hb, hc, hd, show 2 * a * (2 * b) * (2 * c) * (2 * d) = 16 * (a * b * c * d) by ring]
    exact Nat.mul_mod_right _ _
  have c2 : ¬ vol L % NR ≠ 0 := by rw [not_not]; exact Nat.mod_eq_zero_of_dvd hdv
  have c3 : ¬ ∃ mu, fix mu ≠ 0 ∧ (L mu % fix mu ≠ 0 ∨ L mu < (if eo = true then 2 else 1)) := by
    rintro ⟨mu, hm, h | h⟩
    · rw [← hR.fixed mu hm] at h; exact h (Nat.mod_eq_zero_of_dvd (hR.dvd mu))
    · split at h
      · rename_i he
        have h1 := hR.even he mu
        have h2 : 0 < L mu / R mu := Nat.div_pos (Nat.le_of_dvd (hL mu) (hR.dvd mu)) (hRpos mu)
        have h3 := Nat.div_le_self (L mu) (R mu)
        omega
      · have := hL mu; omega
  have c4 : ¬ resNR NR fix < 1 := by have := resNR_ge NR fix R hR.prod h0 hR.fixed; omega
  by_cases h1 : NR = 1
  · unfold findMinimalSurfaceGrid
    simp only [if_neg c1, if_neg c2, if_neg c3, if_neg c4, if_pos h1]
    exact ⟨_, rfl⟩
  · by_cases hV : NR = vol L
    · unfold findMinimalSurfaceGrid
      simp only [if_neg c1, if_neg c2, if_neg c3, if_neg c4, if_neg h1, if_pos hV]
      exact ⟨_, rfl⟩
    · cases hf : findMinimalSurfaceGrid L fix eo NR with
      | none =>
        unfold findMinimalSurfaceGrid at hf
        simp only [if_neg c1, if_neg c2, if_neg c3, if_neg c4, if_neg h1, if_neg hV] at hf
        cases hf
      | some g =>
        cases g with
        | some G => exact ⟨G, rfl⟩
        | none => exact absurd hR (C16_none_found L fix eo NR hL h0 h1 hV hf R)

/-- C16: with a single rank, the only grid; with a rank per site, the whole lattice: both divide the lattice and multiply up to the
number of ranks -/
theorem C16_trivial_grids (L fix : Coords) (eo : Bool) (NR : Nat) (h : NR = 1 ∨ NR = vol L) (R : Coords)
    (hf : findMinimalSurfaceGrid L fix eo NR = some (some R)) : (∀ mu, R mu ∣ L mu) ∧ R 0 * R 1 * R 2 * R 3 = NR := by
  unfold findMinimalSurfaceGrid at hf
  simp only at hf
  by_cases c1 : eo = true ∧ vol L / NR % 16 ≠ 0
  · rw [if_pos c1] at hf; cases hf
  rw [if_neg c1] at hf
  by_cases c2 : vol L % NR ≠ 0
  · rw [if_pos c2] at hf; cases hf
  rw [if_neg c2] at hf
  by_cases c3 : ∃ mu, fix mu ≠ 0 ∧ (L mu % fix mu ≠ 0 ∨ L mu < (if eo = true then 2 else 1))
  · rw [if_pos c3] at hf; cases hf
  rw [if_neg c3] at hf
  by_cases c4 : resNR NR fix < 1
  · rw [if_pos c4] at hf; cases hf
  rw [if_neg c4] at hf
  by_cases h1 : NR = 1
  · rw [if_pos h1] at hf
    cases hf
    exact ⟨fun mu => Nat.one_dvd _, by simp [h1]⟩
  · rw [if_neg h1, if_pos (h.resolve_left h1)] at hf
    cases hf
    exact ⟨fun mu => Nat.dvd_refl _, ((h.resolve_left h1).symm : vol L = NR)⟩

/-- C16 fails in the trivial cases: with a rank per site the directions fixed by the user are ignored... -/
theorem C16_fix_ignored_violated : ∃ R, findMinimalSurfaceGrid ![4, 2, 2, 2] ![2, 0, 0, 0] false 32 = some (some R) ∧ R 0 = 4 := ⟨_, rfl, rfl⟩

/-- ... and with a single rank odd sides are accepted even if even/odd sites are to be used (a later check refuses them) -/
theorem C16_odd_sides_violated : ∃ R, findMinimalSurfaceGrid ![16, 3, 3, 3] ![0, 0, 0, 0] true 1 = some (some R) ∧ 3 / R 1 % 2 = 1 := ⟨_, rfl, rfl⟩

/-- a case: 8x4x4x4 on 4 ranks with 2 of them fixed in direction 0 -/
example : Admissible ![8, 4, 4, 4] ![2, 0, 0, 0] true 4 ![2, 2, 1, 1] ∧ (4 : Nat) ≠ vol ![8, 4, 4, 4] :=
  ⟨⟨by decide, by decide, by decide, by decide⟩, by decide⟩

end Nissa.Grid
