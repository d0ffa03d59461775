import Verif.Tools.FindPart
import Mathlib.Algebra.BigOperators.Group.List.Basic
import Mathlib.Algebra.BigOperators.Fin
import Mathlib.Data.Fintype.Card
import Mathlib.Data.Fintype.BigOperators
import Mathlib.Algebra.Order.BigOperators.Group.Finset
import Mathlib.Tactic.Ring
import Mathlib.Tactic.Linarith
import Mathlib.Tactic.FinCases
import Mathlib.Tactic.Set
set_option linter.all false

/-! Lemmas on the snake that maps torus nodes to ranks. -/

namespace Nissa.Part

/-- number of nodes spanned by a list of torus directions -/
def prodL (g : C5) (l : List TDir) : Nat := (l.map g).prod

/-- the coordinate of a digit in the direction of the sign -/
def digit (g c : C5) (α : TDir) (sign : Bool) : Nat := if sign = false then g α - 1 - c α else c α

/-- the sign after a direction -/
def nextSign (c : C5) (α : TDir) (sign : Bool) : Bool := if c α % 2 = 1 then !sign else sign

theorem rankCoord_cons (g c : C5) (α l sign acc) :
    rankCoord g c (α :: l) sign acc = rankCoord g c l (nextSign c α sign) (acc * g α + digit g c α sign) := rfl

theorem rankCoord_acc (g c : C5) (l : List TDir) : ∀ sign acc,
    rankCoord g c l sign acc = acc * prodL g l + rankCoord g c l sign 0 := by
  induction l with
  | nil => intro s a; simp [rankCoord, prodL]
  | cons α l ih =>
    intro s a
    rw [rankCoord_cons, rankCoord_cons, ih, ih (nextSign c α s) (0 * g α + _)]
    simp only [prodL, List.map_cons, List.prod_cons]; ring

theorem rankCoord_zero_cons (g c : C5) (α l sign) :
    rankCoord g c (α :: l) sign 0 = digit g c α sign * prodL g l + rankCoord g c l (nextSign c α sign) 0 := by
  rw [rankCoord_cons, rankCoord_acc]; simp

theorem digit_lt {g c : C5} {α : TDir} (h : c α < g α) (sign) : digit g c α sign < g α := by
  unfold digit; split <;> omega

theorem rankCoord_lt {g c : C5} {l : List TDir} (h : ∀ α ∈ l, c α < g α) : ∀ sign, rankCoord g c l sign 0 < prodL g l := by
  induction l with
  | nil => intro s; simp [rankCoord, prodL]
  | cons α l ih =>
    intro s
    rw [rankCoord_zero_cons]
    have h1 := digit_lt (h α (by simp)) s
    have h2 := ih (fun β hβ => h β (by simp [hβ])) (nextSign c α s)
    have : prodL g (α :: l) = g α * prodL g l := by simp [prodL]
    rw [this]
    calc digit g c α s * prodL g l + rankCoord g c l (nextSign c α s) 0
        < digit g c α s * prodL g l + prodL g l := by omega
      _ = (digit g c α s + 1) * prodL g l := by ring
      _ ≤ g α * prodL g l := Nat.mul_le_mul_right _ h1

theorem mulAdd_inj {P a b x y : Nat} (hx : x < P) (hy : y < P) (h : a * P + x = b * P + y) : a = b ∧ x = y := by
  have hP : 0 < P := by omega
  have h1 : (a * P + x) / P = a := by
    rw [Nat.mul_comm, Nat.mul_add_div hP, Nat.div_eq_of_lt hx]; simp
  have h2 : (b * P + y) / P = b := by
    rw [Nat.mul_comm, Nat.mul_add_div hP, Nat.div_eq_of_lt hy]; simp
  have : a = b := by rw [← h1, ← h2, h]
  subst this
  exact ⟨rfl, by omega⟩

theorem digit_inj {g c c' : C5} {α : TDir} (h : c α < g α) (h' : c' α < g α) {s} (he : digit g c α s = digit g c' α s) : c α = c' α := by
  unfold digit at he; split at he <;> omega

theorem nextSign_congr {c c' : C5} {α : TDir} (h : c α = c' α) (s) : nextSign c α s = nextSign c' α s := by
  unfold nextSign; rw [h]

/-- two nodes with the same coordinate of the rank agree on the directions of the list -/
theorem rankCoord_inj {g c c' : C5} {l : List TDir} (h : ∀ α ∈ l, c α < g α) (h' : ∀ α ∈ l, c' α < g α) :
    ∀ s, rankCoord g c l s 0 = rankCoord g c' l s 0 → ∀ α ∈ l, c α = c' α := by
  induction l with
  | nil => intro s _ α hα; simp at hα
  | cons β l ih =>
    intro s he α hα
    rw [rankCoord_zero_cons, rankCoord_zero_cons] at he
    have k := mulAdd_inj (rankCoord_lt (fun α hα => h α (by simp [hα])) _) (rankCoord_lt (fun α hα => h' α (by simp [hα])) _) he
    have e := digit_inj (h β (by simp)) (h' β (by simp)) k.1
    rcases List.mem_cons.1 hα with rfl | hα
    · exact e
    · rw [nextSign_congr e] at k
      exact ih (fun α hα => h α (by simp [hα])) (fun α hα => h' α (by simp [hα])) _ k.2 α hα

/-- reversing the sign at the start mirrors the coordinate -/
theorem rankCoord_mirror {g c : C5} {l : List TDir} (h : ∀ α ∈ l, c α < g α) :
    ∀ s, rankCoord g c l s 0 + rankCoord g c l (!s) 0 + 1 = prodL g l := by
  induction l with
  | nil => intro s; simp [rankCoord, prodL]
  | cons β l ih =>
    intro s
    rw [rankCoord_zero_cons, rankCoord_zero_cons]
    have e : nextSign c β (!s) = !(nextSign c β s) := by unfold nextSign; split <;> rfl
    have k := ih (fun α hα => h α (by simp [hα])) (nextSign c β s)
    have d : digit g c β s + digit g c β (!s) + 1 = g β := by
      have := h β (by simp)
      unfold digit; cases s <;> simp <;> omega
    rw [e]
    have : prodL g (β :: l) = g β * prodL g l := by simp [prodL]
    rw [this, ← d, ← k]; ring

/-- c and c' agree on l -/
def AgreeOn (l : List TDir) (c c' : C5) : Prop := ∀ α ∈ l, c α = c' α

/-- the end of a row and the start of the reversed one are the same point -/
theorem agree_of_turn {g c c' : C5} {l : List TDir} (h : ∀ α ∈ l, c α < g α) (h' : ∀ α ∈ l, c' α < g α) {s}
    (e : rankCoord g c l s 0 + 1 = prodL g l) (e' : rankCoord g c' l (!s) 0 = 0) : AgreeOn l c c' := by
  have m := rankCoord_mirror h s
  exact rankCoord_inj h h' (!s) (by omega)

/-- one torus direction of the list moves by one step, the others of the list do not -/
def StepOn (l : List TDir) (c c' : C5) : Prop :=
  ∃ α ∈ l, (c α + 1 = c' α ∨ c' α + 1 = c α) ∧ ∀ β ∈ l, β ≠ α → c β = c' β

theorem rankCoord_step {g c c' : C5} {l : List TDir} (hn : l.Nodup) (h : ∀ α ∈ l, c α < g α) (h' : ∀ α ∈ l, c' α < g α) :
    ∀ s, rankCoord g c l s 0 + 1 = rankCoord g c' l s 0 → StepOn l c c' := by
  induction l with
  | nil => intro s e; simp [rankCoord] at e
  | cons β l ih =>
    intro s e
    have hn' := List.nodup_cons.1 hn
    have hl : ∀ α ∈ l, c α < g α := fun α hα => h α (by simp [hα])
    have hl' : ∀ α ∈ l, c' α < g α := fun α hα => h' α (by simp [hα])
    rw [rankCoord_zero_cons, rankCoord_zero_cons] at e
    have b1 := rankCoord_lt hl (nextSign c β s)
    have b2 := rankCoord_lt hl' (nextSign c' β s)
    have hb := h β (by simp)
    have hb' := h' β (by simp)
    by_cases q : rankCoord g c l (nextSign c β s) 0 + 1 < prodL g l
    · have k := mulAdd_inj (a := digit g c β s) (b := digit g c' β s) q b2 (by omega)
      have e1 := digit_inj hb hb' k.1
      rw [nextSign_congr e1] at k
      obtain ⟨α, hα, s1, s2⟩ := ih hn'.2 hl hl' _ k.2
      refine ⟨α, by simp [hα], s1, ?_⟩
      intro γ hγ hne
      rcases List.mem_cons.1 hγ with rfl | hγ
      · exact e1
      · exact s2 γ hγ hne
    · have q' : rankCoord g c l (nextSign c β s) 0 + 1 = prodL g l := by omega
      have k := mulAdd_inj (P := prodL g l) (a := digit g c β s + 1) (b := digit g c' β s) (x := 0) (by omega) b2
        (by rw [Nat.add_mul, Nat.one_mul]; omega)
      have st : c β + 1 = c' β ∨ c' β + 1 = c β := by
        have := k.1
        unfold digit at this; split at this <;> omega
      have sg : nextSign c' β s = !(nextSign c β s) := by
        unfold nextSign
        rcases st with st | st
        · by_cases p : c β % 2 = 1
          · rw [if_neg (by omega), if_pos p]; simp
          · rw [if_pos (by omega), if_neg p]
        · by_cases p : c β % 2 = 1
          · rw [if_neg (by omega), if_pos p]; simp
          · rw [if_pos (by omega), if_neg p]
      have ag := agree_of_turn hl hl' q' (by rw [← sg]; exact k.2.symm)
      refine ⟨β, by simp, st, ?_⟩
      intro γ hγ hne
      rcases List.mem_cons.1 hγ with rfl | hγ
      · exact absurd rfl hne
      · exact ag γ hγ

/-- c and c' differ by the ends of one torus direction of the list -/
def WrapOn (g : C5) (l : List TDir) (c c' : C5) : Prop :=
  ∃ α ∈ l, ((c α = 0 ∧ c' α + 1 = g α) ∨ (c' α = 0 ∧ c α + 1 = g α)) ∧ 1 < g α ∧ ∀ β ∈ l, β ≠ α → c β = c' β

theorem rankCoord_wrap {g c c' : C5} {l : List TDir} (hn : l.Nodup) (h : ∀ α ∈ l, c α < g α) (h' : ∀ α ∈ l, c' α < g α)
    (he : ∀ α ∈ l, g α = 1 ∨ g α % 2 = 0) (hp : 1 < prodL g l) :
    ∀ s, rankCoord g c l s 0 + 1 = prodL g l → rankCoord g c' l s 0 = 0 → WrapOn g l c c' := by
  induction l with
  | nil => simp [prodL] at hp
  | cons β l ih =>
    intro s e e'
    have hn' := List.nodup_cons.1 hn
    have hl : ∀ α ∈ l, c α < g α := fun α hα => h α (by simp [hα])
    have hl' : ∀ α ∈ l, c' α < g α := fun α hα => h' α (by simp [hα])
    have hb := h β (by simp)
    have hb' := h' β (by simp)
    have pc : prodL g (β :: l) = g β * prodL g l := by simp [prodL]
    have pl : 0 < prodL g l := by
      rcases Nat.eq_zero_or_pos (prodL g l) with z | z
      · rw [pc, z] at hp; omega
      · exact z
    rw [rankCoord_zero_cons] at e e'
    have b1 := rankCoord_lt hl (nextSign c β s)
    have z1 : digit g c' β s = 0 := by
      by_contra hne
      have : 1 ≤ digit g c' β s := by omega
      have := Nat.mul_le_mul_right (prodL g l) this
      omega
    have z2 : rankCoord g c' l (nextSign c' β s) 0 = 0 := by omega
    have k : digit g c β s = g β - 1 ∧ rankCoord g c l (nextSign c β s) 0 = prodL g l - 1 := by
      refine mulAdd_inj (P := prodL g l) b1 (by omega) ?_
      obtain ⟨m, hm⟩ : ∃ m, g β = m + 1 := ⟨g β - 1, by omega⟩
      rw [pc, hm] at e
      rw [hm]
      rw [Nat.add_mul, Nat.one_mul] at e
      simp only [Nat.add_sub_cancel]; omega
    rcases he β (by simp) with g1 | g2
    · have c0 : c β = c' β := by omega
      obtain ⟨α, hα, w1, w2, w3⟩ := ih hn'.2 hl hl' (fun α hα => he α (by simp [hα])) (by rw [pc, g1] at hp; omega)
        (nextSign c β s) (by omega) (by rw [nextSign_congr c0]; exact z2)
      refine ⟨α, by simp [hα], w1, w2, ?_⟩
      intro γ hγ hne
      rcases List.mem_cons.1 hγ with rfl | hγ
      · exact c0
      · exact w3 γ hγ hne
    · have en : (c β = 0 ∧ c' β + 1 = g β) ∨ (c' β = 0 ∧ c β + 1 = g β) := by
        have := k.1
        unfold digit at this z1; split at this
        · rw [if_pos (by assumption)] at z1; omega
        · rw [if_neg (by assumption)] at z1; omega
      have sg : nextSign c' β s = !(nextSign c β s) := by
        unfold nextSign
        by_cases p : c β % 2 = 1
        · rw [if_neg (by omega), if_pos p]; simp
        · rw [if_pos (by omega), if_neg p]
      have ag := agree_of_turn (s := nextSign c β s) hl hl' (by have := k.2; omega) (by rw [← sg]; exact z2)
      refine ⟨β, by simp, en, by omega, ?_⟩
      intro γ hγ hne
      rcases List.mem_cons.1 hγ with rfl | hγ
      · exact absurd rfl hne
      · exact ag γ hγ

/-- with a single direction the ends are always at the two sides -/
theorem rankCoord_wrap1 {g c c' : C5} {α : TDir} (h : c α < g α) (h' : c' α < g α) (hp : 1 < g α) (s)
    (e : rankCoord g c [α] s 0 + 1 = prodL g [α]) (e' : rankCoord g c' [α] s 0 = 0) : WrapOn g [α] c c' := by
  refine ⟨α, by simp, ?_, hp, by simp⟩
  simp only [rankCoord_zero_cons, prodL, List.map_cons, List.map_nil, List.prod_cons, List.prod_nil, rankCoord, digit] at e e'
  split at e <;> simp_all <;> omega

end Nissa.Part
