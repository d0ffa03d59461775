import Verif.Nice.PropsScript5

/-! # C75: the core of the language: lemmas on the memory -/

set_option linter.all false

namespace Nissa.Nice

variable {F : Type}

/-- the cell of a name -/
def findLay : Layout → String → Option Nat
  | [], _ => none
  | a :: l, x =>
    match lookup a.2 x with
    | some c => some c
    | none => findLay l x

theorem linked_lt {s : St F} {a : Nat × List (String × Nat)} {l : Layout} (h : Linked s (a :: l)) : a.1 < s.envs.length := by
  cases l with
  | nil => exact (List.getElem?_eq_some_iff.mp h).1
  | cons b l => exact (List.getElem?_eq_some_iff.mp h.1).1

theorem findIn_lay {s : St F} {l : Layout} {a : Nat × List (String × Nat)} (h : Linked s (a :: l)) (x : String) (k : Nat) (hk : a.1 < k) : findIn s.envs k a.1 x = findLay (a :: l) x := by
  induction l generalizing a k with
  | nil =>
    obtain ⟨k, rfl⟩ : ∃ k', k = k' + 1 := ⟨k - 1, by omega⟩
    have h' : s.envs[a.1]? = some ⟨none, a.2⟩ := h
    unfold findIn findLay
    rw [h']
    dsimp only
    cases lookup a.2 x <;> rfl
  | cons b l ih =>
    obtain ⟨k, rfl⟩ : ∃ k', k = k' + 1 := ⟨k - 1, by omega⟩
    unfold findIn findLay
    rw [h.1]
    dsimp only
    cases lookup a.2 x with
    | some c => rfl
    | none => exact ih h.2.2 k (by have := h.2.1; omega)

theorem Holds.find {s : St F} {lay : Layout} {σ : Stack F} (h : Holds s lay σ) (x : String) : s.find x = findLay lay x := by
  cases lay with
  | nil => exact h.linked.elim
  | cons a l =>
    have h1 := h.head
    simp only [List.head?_cons, Option.map_some, Option.some.injEq] at h1
    unfold St.find
    rw [← h1]
    exact findIn_lay h.linked x _ (linked_lt h.linked)

theorem lookup_cons (p : String × Nat) (l : List (String × Nat)) (x : String) : lookup (p :: l) x = if p.1 = x then some p.2 else lookup l x := by
  unfold lookup
  rw [List.find?_cons]
  by_cases h : p.1 = x
  · rw [if_pos h, beq_iff_eq.mpr h]; rfl
  · rw [if_neg h, beq_eq_false_iff_ne.mpr h]

theorem scope_look {s : St F} {vars : List (String × Nat)} {sc : List (String × Value F)} (h : ScopeOk s vars sc) (x : String) : (lookup vars x = none ∧ look1 sc x = none) ∨ ∃ c v, lookup vars x = some c ∧ look1 sc x = some v ∧ s.cells[c]? = some v := by
  induction h with
  | nil => exact Or.inl ⟨rfl, rfl⟩
  | @cons p q vars sc hpq h ih =>
    rw [lookup_cons]
    unfold look1
    by_cases hx : p.1 = x
    · rw [if_pos hx, if_pos (hpq.1 ▸ hx)]
      exact Or.inr ⟨p.2, q.2, rfl, rfl, hpq.2⟩
    · rw [if_neg hx, if_neg (hpq.1 ▸ hx)]
      exact ih

theorem vals_look {s : St F} {lay : Layout} {σ : Stack F} (h : List.Forall₂ (fun a sc => ScopeOk s a.2 sc) lay σ) (x : String) : (findLay lay x = none ∧ look σ x = none) ∨ ∃ c v, findLay lay x = some c ∧ look σ x = some v ∧ s.cells[c]? = some v := by
  induction h with
  | nil => exact Or.inl ⟨rfl, rfl⟩
  | @cons a sc lay σ h1 h ih =>
    unfold findLay look
    rcases scope_look h1 x with ⟨h2, h3⟩ | ⟨c, v, h2, h3, h4⟩
    · rw [h2, h3]; exact ih
    · rw [h2, h3]; exact Or.inr ⟨c, v, rfl, rfl, h4⟩

theorem scopeOk_congr {s s' : St F} {vars : List (String × Nat)} {sc : List (String × Value F)} (h : ScopeOk s vars sc) (hc : ∀ c ∈ vars.map (·.2), s'.cells[c]? = s.cells[c]?) : ScopeOk s' vars sc := by
  induction h with
  | nil => exact .nil
  | @cons p q vars sc hpq h ih => exact .cons ⟨hpq.1, by rw [hc p.2 (by simp), hpq.2]⟩ (ih fun c hc' => hc c (by simp only [List.map_cons]; exact List.mem_cons_of_mem _ hc'))

theorem vals_congr {s s' : St F} {lay : Layout} {σ : Stack F} (h : List.Forall₂ (fun a sc => ScopeOk s a.2 sc) lay σ) (hc : ∀ c ∈ lay.flatMap (fun a => a.2.map (·.2)), s'.cells[c]? = s.cells[c]?) : List.Forall₂ (fun a sc => ScopeOk s' a.2 sc) lay σ := by
  induction h with
  | nil => exact .nil
  | @cons a sc lay σ h1 h ih =>
    rw [List.flatMap_cons] at hc
    exact .cons (scopeOk_congr h1 fun c h => hc c (List.mem_append_left _ h)) (ih fun c h => hc c (List.mem_append_right _ h))

theorem lookup_mem_cells {vars : List (String × Nat)} {x : String} {c : Nat} (h : lookup vars x = some c) : c ∈ vars.map (·.2) := by
  obtain ⟨y, hy⟩ := lookup_mem h
  exact List.mem_map.mpr ⟨(y, c), hy, rfl⟩

theorem findLay_mem {lay : Layout} {x : String} {c : Nat} (h : findLay lay x = some c) : c ∈ lay.flatMap (fun a => a.2.map (·.2)) := by
  induction lay with
  | nil => cases h
  | cons a l ih =>
    unfold findLay at h
    rw [List.flatMap_cons]
    split at h
    · rename_i c' hc'
      cases h
      exact List.mem_append_left _ (lookup_mem_cells hc')
    · exact List.mem_append_right _ (ih h)

theorem get_set_ne {s : St F} {c c' : Nat} (v : Value F) (h : c' ≠ c) : ({ s with cells := s.cells.set c v } : St F).cells[c']? = s.cells[c']? := by
  show (s.cells.set c v)[c']? = _
  rw [List.getElem?_set, if_neg (fun e => h e.symm)]

theorem scope_put {s : St F} {vars : List (String × Nat)} {sc : List (String × Value F)} (h : ScopeOk s vars sc) (x : String) (c : Nat) (v : Value F) (hf : lookup vars x = some c) (hn : (vars.map (·.2)).Nodup) : ScopeOk { s with cells := s.cells.set c v } vars (put1 sc x v) := by
  induction h with
  | nil => cases hf
  | @cons p q vars sc hpq h ih =>
    rw [lookup_cons] at hf
    rw [List.map_cons, List.nodup_cons] at hn
    unfold put1
    by_cases hx : p.1 = x
    · rw [if_pos hx] at hf
      rw [if_pos (hpq.1 ▸ hx)]
      cases hf
      refine .cons ⟨hx, ?_⟩ (scopeOk_congr h fun c hc => get_set_ne v fun e => hn.1 (e ▸ hc))
      show (s.cells.set p.2 v)[p.2]? = some v
      have := (List.getElem?_eq_some_iff.mp hpq.2).1
      rw [List.getElem?_set, if_pos rfl, if_pos this]
    · rw [if_neg hx] at hf
      rw [if_neg (hpq.1 ▸ hx)]
      refine .cons ⟨hpq.1, ?_⟩ (ih hf hn.2)
      rw [get_set_ne v, hpq.2]
      intro e
      exact hn.1 (e ▸ lookup_mem_cells hf)

theorem vals_put {s : St F} {lay : Layout} {σ : Stack F} (h : List.Forall₂ (fun a sc => ScopeOk s a.2 sc) lay σ) (x : String) (c : Nat) (v : Value F) (hf : findLay lay x = some c) (hn : (lay.flatMap fun a => a.2.map (·.2)).Nodup) : List.Forall₂ (fun a sc => ScopeOk { s with cells := s.cells.set c v } a.2 sc) lay (put σ x v) := by
  induction h with
  | nil => cases hf
  | @cons a sc lay σ h1 h ih =>
    rw [List.flatMap_cons, List.nodup_append] at hn
    unfold findLay at hf
    unfold put
    rcases scope_look h1 x with ⟨h2, h3⟩ | ⟨c', v', h2, h3, h4⟩
    · rw [h2] at hf
      rw [h3]
      dsimp only at hf ⊢
      exact .cons (scopeOk_congr h1 fun d hd => get_set_ne v fun e => hn.2.2 d hd c (findLay_mem hf) e) (ih hf hn.2.1)
    · rw [h2] at hf
      rw [h3]
      cases hf
      dsimp only
      exact .cons (scope_put h1 x c v h2 hn.1) (vals_congr h fun d hd => get_set_ne v fun e => hn.2.2 c (lookup_mem_cells h2) d hd e.symm)

theorem linked_cells {s s' : St F} (he : s'.envs = s.envs) {lay : Layout} (h : Linked s lay) : Linked s' lay := by
  induction lay with
  | nil => exact h
  | cons a l ih =>
    cases l with
    | nil => unfold Linked at h ⊢; rw [he]; exact h
    | cons b l => unfold Linked at h ⊢; rw [he]; exact ⟨h.1, h.2.1, ih h.2.2⟩

/-- a new value for a variable -/
theorem Holds.put {s : St F} {lay : Layout} {σ : Stack F} (h : Holds s lay σ) (x : String) (c : Nat) (v : Value F) (hf : findLay lay x = some c) : Holds { s with cells := s.cells.set c v } lay (put σ x v) := by
  refine ⟨h.head, ?_, vals_put h.vals x c v hf h.nodup, h.nodup⟩
  exact linked_cells (s := s) (by rfl) h.linked

theorem scope_lt {s : St F} {vars : List (String × Nat)} {sc : List (String × Value F)} (h : ScopeOk s vars sc) : ∀ c ∈ vars.map (·.2), c < s.cells.length := by
  induction h with
  | nil => intro c hc; cases hc
  | @cons p q vars sc hpq h ih =>
    intro c hc
    rw [List.map_cons] at hc
    rcases List.mem_cons.mp hc with e | hc
    · rw [e]; exact (List.getElem?_eq_some_iff.mp hpq.2).1
    · exact ih c hc

theorem vals_lt {s : St F} {lay : Layout} {σ : Stack F} (h : List.Forall₂ (fun a sc => ScopeOk s a.2 sc) lay σ) : ∀ c ∈ lay.flatMap (fun a => a.2.map (·.2)), c < s.cells.length := by
  induction h with
  | nil => intro c hc; cases hc
  | @cons a sc lay σ h1 h ih =>
    intro c hc
    rw [List.flatMap_cons] at hc
    rcases List.mem_append.mp hc with hc | hc
    · exact scope_lt h1 c hc
    · exact ih c hc

theorem linked_ext {s s' : St F} {lay : Layout} (h : Linked s lay) (he : ∀ a ∈ lay, s'.envs[a.1]? = s.envs[a.1]?) : Linked s' lay := by
  induction lay with
  | nil => exact h
  | cons a l ih =>
    cases l with
    | nil => unfold Linked at h ⊢; rw [he a (by simp)]; exact h
    | cons b l => unfold Linked at h ⊢; rw [he a (by simp)]; exact ⟨h.1, h.2.1, ih h.2.2 fun x hx => he x (List.mem_cons_of_mem _ hx)⟩

theorem linked_tail_lt {s : St F} {a : Nat × List (String × Nat)} {l : Layout} (h : Linked s (a :: l)) : ∀ b ∈ l, b.1 < a.1 := by
  induction l generalizing a with
  | nil => intro b hb; cases hb
  | cons b l ih =>
    intro c hc
    rcases List.mem_cons.mp hc with e | hc
    · rw [e]; exact h.2.1
    · exact (ih h.2.2 c hc).trans h.2.1

/-- a new variable -/
theorem Holds.declare {s : St F} {a : Nat × List (String × Nat)} {l : Layout} {σ : Stack F} (h : Holds s (a :: l) σ) (x : String) (v : Value F) :
    Holds { s with cells := s.cells ++ [v], envs := addVar s.envs s.cur x s.cells.length } ((a.1, a.2 ++ [(x, s.cells.length)]) :: l) (declare σ x v) := by
  obtain ⟨h1, h2, h3, h4⟩ := h
  simp only [List.head?_cons, Option.map_some, Option.some.injEq] at h1
  set s' : St F := { s with cells := s.cells ++ [v], envs := addVar s.envs s.cur x s.cells.length } with hs'
  have hg : ∀ i, s'.envs[i]? = if i = s.cur then (s.envs[i]?).map (fun env => { env with vars := env.vars ++ [(x, s.cells.length)] }) else s.envs[i]? := getElem?_addVar s.envs s.cur x s.cells.length
  have hcell : ∀ c, c < s.cells.length → s'.cells[c]? = s.cells[c]? := fun c hc => List.getElem?_append_left hc
  refine ⟨by simp [h1, hs'], ?_, ?_, ?_⟩
  · cases l with
    | nil =>
      have h2' : s.envs[a.1]? = some ⟨none, a.2⟩ := h2
      show s'.envs[a.1]? = some ⟨none, a.2 ++ [(x, s.cells.length)]⟩
      rw [hg, if_pos h1, h2']; rfl
    | cons b l =>
      refine ⟨?_, h2.2.1, linked_ext h2.2.2 fun c hc => ?_⟩
      · show s'.envs[a.1]? = some ⟨some b.1, a.2 ++ [(x, s.cells.length)]⟩
        rw [hg, if_pos h1, h2.1]; rfl
      · have := linked_tail_lt h2 c hc
        rw [hg, if_neg (by omega)]
  · have hlt := vals_lt h3
    cases h3 with
    | @cons _ sc _ σ h5 h6 =>
      rw [List.flatMap_cons] at hlt
      refine .cons ?_ (vals_congr h6 fun c hc => hcell c (hlt c (List.mem_append_right _ hc)))
      refine List.rel_append (scopeOk_congr h5 fun c hc => hcell c (hlt c (List.mem_append_left _ hc))) (.cons ⟨rfl, ?_⟩ .nil)
      show (s.cells ++ [v])[s.cells.length]? = some v
      simp
  · have hlt := vals_lt h3
    rw [List.flatMap_cons] at h4 hlt ⊢
    have : ((a.2 ++ [(x, s.cells.length)]).map (·.2)) ++ l.flatMap (fun a => a.2.map (·.2)) = a.2.map (·.2) ++ (s.cells.length :: l.flatMap (fun a => a.2.map (·.2))) := by simp
    show (((a.2 ++ [(x, s.cells.length)]).map (·.2)) ++ _).Nodup
    rw [this]
    rw [List.nodup_middle, List.nodup_cons]
    exact ⟨fun hm => by have := hlt _ hm; omega, h4⟩

/-- a new scope -/
theorem Holds.enter {s : St F} {lay : Layout} {σ : Stack F} (h : Holds s lay σ) : Holds { s with envs := s.envs ++ [⟨some s.cur, []⟩], cur := s.envs.length } ((s.envs.length, []) :: lay) ([] :: σ) := by
  cases lay with
  | nil => exact h.linked.elim
  | cons a l =>
    have h1 := h.head
    simp only [List.head?_cons, Option.map_some, Option.some.injEq] at h1
    have hlt := linked_lt h.linked
    refine ⟨rfl, ⟨?_, hlt, linked_ext h.linked fun c hc => ?_⟩, .cons .nil (vals_congr h.vals fun _ _ => rfl), by rw [List.flatMap_cons]; exact h.nodup⟩
    · show (s.envs ++ [(⟨some s.cur, []⟩ : Env)])[s.envs.length]? = some ⟨some a.1, []⟩
      rw [h1]; simp
    · show (s.envs ++ [(⟨some s.cur, []⟩ : Env)])[c.1]? = s.envs[c.1]?
      rcases List.mem_cons.mp hc with e | hc
      · rw [e, List.getElem?_append_left hlt]
      · have := linked_tail_lt h.linked c hc
        rw [List.getElem?_append_left (by omega)]

/-- the end of a scope -/
theorem Holds.leave {s : St F} {a : Nat × List (String × Nat)} {lay : Layout} {σ : Stack F} {sc : List (String × Value F)} (h : Holds s (a :: lay) (sc :: σ)) (e : Nat) (he : lay.head?.map (·.1) = some e) : Holds { s with cur := e } lay σ := by
  cases lay with
  | nil => cases he
  | cons b l =>
    cases h.vals with
    | cons h1 h2 =>
      have h3 := h.nodup
      rw [List.flatMap_cons, List.nodup_append] at h3
      refine ⟨he, ?_, vals_congr h2 fun _ _ => rfl, h3.2.1⟩
      exact linked_cells (s := s) (by rfl) h.linked.2.2

end Nissa.Nice
