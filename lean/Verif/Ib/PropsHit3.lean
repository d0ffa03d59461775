import Verif.Ib.PropsHit2

/-! # The looper on the hits: facts on the sequence of the operations -/

set_option linter.all false

namespace Nissa.Hit

section
variable {N V : Type} [LinearOrder N] (p : Plan N V)

/-- no two operations have the same name -/
def Tags (l : List (Op N)) : Prop := l.Pairwise fun o o' => ∀ t, o.tag p = some t → o'.tag p ≠ some t

/-- what follows a meson contraction is another one or the clearing of the pointers -/
def Op.follows : Op N → Prop
  | .contr _ _ _ => True
  | .clear => True
  | _ => False

/-- conditions on an operation, given the propagators computed and what follows -/
def OpOk (C : Finset N) (o : Op N) (rem : List (Op N)) : Prop :=
  match o with
  | .gen n => n ∉ C ∧ n ∈ p.qprops ∧ Needed p n
  | .contr _ _ _ => ∃ o' r, rem = o' :: r ∧ o'.follows
  | _ => True

def Good : Finset N → List (Op N) → Prop
  | _, [] => True
  | C, o :: rem => (∀ x ∈ o.operands p, x ∈ C) ∧ OpOk p C o rem ∧ Good (o.addProps C) rem

theorem mem_opsFrom (need : N → Bool) : ∀ (l : List N) (C : Finset N) (D : Finset Nat) (S : Finset N) (o : Op N), o ∈ opsFrom p need l C D S →
    match o with
    | .gen n => n ∈ l ∧ need n = true
    | .contr i a b => i ∉ D ∧ p.contr[i]? = some (a, b)
    | .clear => True
    | .side s a b => s ∉ S ∧ (s, a, b) ∈ p.sides := by
  intro l
  induction l with
  | nil => intro C D S o h; simp [opsFrom] at h
  | cons n l ih =>
    intro C D S o h
    unfold opsFrom at h
    split at h
    · rename_i hn
      rcases List.mem_append.1 h with h | h
      · unfold blockOps at h
        simp only [List.cons_append, List.mem_cons, List.mem_append, List.mem_map] at h
        rcases h with rfl | ⟨y, hy, rfl⟩ | rfl | ⟨y, hy, rfl⟩
        · exact ⟨List.mem_cons_self, hn⟩
        · have := (mem_canBeComputed p).1 hy
          exact ⟨this.2.2.2, List.mk_mem_zipIdx_iff_getElem?.1 this.1⟩
        · trivial
        · have := (mem_canSides p).1 hy
          exact ⟨this.2.2.2, this.1⟩
      · have := ih _ _ _ o h
        cases o with
        | gen m => exact ⟨List.mem_cons_of_mem _ this.1, this.2⟩
        | contr i a b => exact ⟨fun h' => this.1 (Finset.mem_union_left _ h'), this.2⟩
        | clear => trivial
        | side s a b => exact ⟨fun h' => this.1 (Finset.mem_union_left _ h'), this.2⟩
    · have := ih _ _ _ o h
      cases o with
      | gen m => exact ⟨List.mem_cons_of_mem _ this.1, this.2⟩
      | contr i a b => exact this
      | clear => trivial
      | side s a b => exact this

theorem gen_mem_opsFrom (need : N → Bool) : ∀ (l : List N) (C : Finset N) (D : Finset Nat) (S : Finset N) (n : N), n ∈ l → need n = true → Op.gen n ∈ opsFrom p need l C D S := by
  intro l
  induction l with
  | nil => intro C D S o h; simp at h
  | cons m l ih =>
    intro C D S n h hn
    unfold opsFrom
    rcases List.mem_cons.1 h with rfl | h
    · rw [if_pos hn]
      exact List.mem_append_left _ (by simp [blockOps])
    · split
      · exact List.mem_append_right _ (ih _ _ _ n h hn)
      · exact ih _ _ _ n h hn

theorem contr_mem_opsFrom (need : N → Bool) : ∀ (l : List N) (C : Finset N) (D : Finset Nat) (S : Finset N) (i : Nat) (a b : N), p.contr[i]? = some (a, b) → i ∉ D → ¬(a ∈ C ∧ b ∈ C) →
    (a ∈ C ∨ (a ∈ l ∧ need a = true)) → (b ∈ C ∨ (b ∈ l ∧ need b = true)) → Op.contr i a b ∈ opsFrom p need l C D S := by
  intro l
  induction l with
  | nil => intro C D S i a b _ _ h3 h4 h5; simp at h4 h5; exact absurd ⟨h4, h5⟩ h3
  | cons m l ih =>
    intro C D S i a b h1 h2 h3 h4 h5
    unfold opsFrom
    by_cases hm : need m = true
    · rw [if_pos hm]
      by_cases hab : a ∈ insert m C ∧ b ∈ insert m C
      · refine List.mem_append_left _ ?_
        simp only [blockOps, List.cons_append, List.mem_cons, List.mem_append, List.mem_map]
        refine .inr (.inl ⟨(i, a, b), (mem_canBeComputed p).2 ⟨List.mk_mem_zipIdx_iff_getElem?.2 h1, hab.1, hab.2, h2⟩, rfl⟩)
      · refine List.mem_append_right _ (ih _ _ _ i a b h1 ?_ hab ?_ ?_)
        · rw [Finset.mem_union, List.mem_toFinset, List.mem_map]
          rintro (h | ⟨y, hy, rfl⟩)
          · exact h2 h
          · have := (mem_canBeComputed p).1 hy
            have e := List.mk_mem_zipIdx_iff_getElem?.1 this.1
            rw [h1] at e
            have e' := Option.some.inj e
            rw [← e'] at this
            exact hab ⟨this.2.1, this.2.2.1⟩
        · rcases h4 with h | ⟨h, h'⟩
          · exact .inl (Finset.mem_insert_of_mem h)
          · rcases List.mem_cons.1 h with rfl | h
            · exact .inl (Finset.mem_insert_self _ _)
            · exact .inr ⟨h, h'⟩
        · rcases h5 with h | ⟨h, h'⟩
          · exact .inl (Finset.mem_insert_of_mem h)
          · rcases List.mem_cons.1 h with rfl | h
            · exact .inl (Finset.mem_insert_self _ _)
            · exact .inr ⟨h, h'⟩
    · rw [if_neg hm]
      refine ih _ _ _ i a b h1 h2 h3 ?_ ?_
      · rcases h4 with h | ⟨h, h'⟩
        · exact .inl h
        · rcases List.mem_cons.1 h with rfl | h
          · exact absurd h' hm
          · exact .inr ⟨h, h'⟩
      · rcases h5 with h | ⟨h, h'⟩
        · exact .inl h
        · rcases List.mem_cons.1 h with rfl | h
          · exact absurd h' hm
          · exact .inr ⟨h, h'⟩

theorem side_mem_opsFrom (hs : (p.sides.map Prod.fst).Nodup) (need : N → Bool) : ∀ (l : List N) (C : Finset N) (D : Finset Nat) (S : Finset N) (s a b : N), (s, a, b) ∈ p.sides → s ∉ S → ¬(a ∈ C ∧ b ∈ C) →
    (a ∈ C ∨ (a ∈ l ∧ need a = true)) → (b ∈ C ∨ (b ∈ l ∧ need b = true)) → Op.side s a b ∈ opsFrom p need l C D S := by
  intro l
  induction l with
  | nil => intro C D S i a b _ _ h3 h4 h5; simp at h4 h5; exact absurd ⟨h4, h5⟩ h3
  | cons m l ih =>
    intro C D S i a b h1 h2 h3 h4 h5
    unfold opsFrom
    by_cases hm : need m = true
    · rw [if_pos hm]
      by_cases hab : a ∈ insert m C ∧ b ∈ insert m C
      · refine List.mem_append_left _ ?_
        simp only [blockOps, List.cons_append, List.mem_cons, List.mem_append, List.mem_map]
        refine .inr (.inr (.inr ⟨(i, a, b), (mem_canSides p).2 ⟨h1, hab.1, hab.2, h2⟩, rfl⟩))
      · refine List.mem_append_right _ (ih _ _ _ i a b h1 ?_ hab ?_ ?_)
        · rw [Finset.mem_union, List.mem_toFinset, List.mem_map]
          rintro (h | ⟨y, hy, e⟩)
          · exact h2 h
          · have := (mem_canSides p).1 hy
            have e' : y = (i, a, b) := List.inj_on_of_nodup_map hs this.1 h1 e
            rw [e'] at this
            exact hab ⟨this.2.1, this.2.2.1⟩
        · rcases h4 with h | ⟨h, h'⟩
          · exact .inl (Finset.mem_insert_of_mem h)
          · rcases List.mem_cons.1 h with rfl | h
            · exact .inl (Finset.mem_insert_self _ _)
            · exact .inr ⟨h, h'⟩
        · rcases h5 with h | ⟨h, h'⟩
          · exact .inl (Finset.mem_insert_of_mem h)
          · rcases List.mem_cons.1 h with rfl | h
            · exact .inl (Finset.mem_insert_self _ _)
            · exact .inr ⟨h, h'⟩
    · rw [if_neg hm]
      refine ih _ _ _ i a b h1 h2 h3 ?_ ?_
      · rcases h4 with h | ⟨h, h'⟩
        · exact .inl h
        · rcases List.mem_cons.1 h with rfl | h
          · exact absurd h' hm
          · exact .inr ⟨h, h'⟩
      · rcases h5 with h | ⟨h, h'⟩
        · exact .inl h
        · rcases List.mem_cons.1 h with rfl | h
          · exact absurd h' hm
          · exact .inr ⟨h, h'⟩

/-! ### Distinct names -/

theorem canBeComputed_nodup (C : Finset N) (D : Finset Nat) : ((canBeComputed p C D).map Prod.fst).Nodup := by
  unfold canBeComputed
  refine ((List.perm_insertionSort _ _).map Prod.fst).nodup_iff.2 ?_
  refine List.Nodup.sublist ((List.filter_sublist).map _) ?_
  rw [List.map_map]
  have : (Prod.fst ∘ fun x : (N × N) × Nat => (x.2, x.1)) = Prod.snd := rfl
  rw [this, List.zipIdx_map_snd]
  exact List.nodup_range'

theorem tags_opsFrom (hp : Valid p) (need : N → Bool) : ∀ (l : List N) (C : Finset N) (D : Finset Nat) (S : Finset N), l.Nodup → (∀ n ∈ l, n ∈ p.qprops) → Tags p (opsFrom p need l C D S) := by
  intro l
  induction l with
  | nil => intro C D S _ _; exact List.Pairwise.nil
  | cons n l ih =>
    intro C D S hn hq
    rw [List.nodup_cons] at hn
    unfold opsFrom
    split
    · have ht := ih (insert n C) (D ∪ ((canBeComputed p (insert n C) D).map Prod.fst).toFinset) (S ∪ ((canSides p (insert n C) S).map Prod.fst).toFinset) hn.2 (fun m hm => hq m (List.mem_cons_of_mem _ hm))
      have hm := mem_opsFrom p need l (insert n C) (D ∪ ((canBeComputed p (insert n C) D).map Prod.fst).toFinset) (S ∪ ((canSides p (insert n C) S).map Prod.fst).toFinset)
      set R := opsFrom p need l (insert n C) (D ∪ ((canBeComputed p (insert n C) D).map Prod.fst).toFinset) (S ∪ ((canSides p (insert n C) S).map Prod.fst).toFinset) with hR
      clear_value R
      have c2 : ∀ i a b, p.contr[i]? = some (a, b) → p.tag2 i ∉ p.qprops := fun i a b h => hp.tag2_names i (List.getElem?_eq_some_iff.1 h).1
      have hb : ∀ x ∈ canBeComputed p (insert n C) D, p.contr[x.1]? = some (x.2.1, x.2.2) ∧ x.1 ∉ D := fun x hx => by
        have := (mem_canBeComputed p).1 hx
        exact ⟨List.mk_mem_zipIdx_iff_getElem?.1 this.1, this.2.2.2⟩
      have hsd : ∀ x ∈ canSides p (insert n C) S, x ∈ p.sides := fun x hx => ((mem_canSides p).1 hx).1
      unfold Tags blockOps
      simp only [List.cons_append, List.append_assoc]
      rw [List.pairwise_cons, List.pairwise_append, List.pairwise_cons, List.pairwise_append]
      refine ⟨?_, ?_, ⟨?_, ?_, ht, ?_⟩, ?_⟩
      · intro o ho t e e'
        cases e
        simp only [List.mem_append, List.mem_cons, List.mem_map] at ho
        rcases ho with ⟨x, hx, rfl⟩ | rfl | ⟨x, hx, rfl⟩ | ho
        · exact c2 _ _ _ (hb x hx).1 (Option.some.inj e' ▸ hq n List.mem_cons_self)
        · exact absurd e' (by simp [Op.tag])
        · exact hp.tagS_names x (hsd x hx) (Option.some.inj e' ▸ hq n List.mem_cons_self)
        · have := hm o ho
          cases o with
          | gen m => exact hn.1 (Option.some.inj e' ▸ this.1)
          | contr i a b => exact c2 i a b this.2 (Option.some.inj e' ▸ hq n List.mem_cons_self)
          | clear => exact absurd e' (by simp [Op.tag])
          | side s a b => exact hp.tagS_names _ this.2 (Option.some.inj e' ▸ hq n List.mem_cons_self)
      · rw [List.pairwise_map]
        refine (List.pairwise_map.1 (canBeComputed_nodup p (insert n C) D)).imp ?_
        intro x y hxy t e e'
        cases e
        exact hxy (hp.tag2_inj (Option.some.inj e')).symm
      · intro o ho t e; exact absurd e (by simp [Op.tag])
      · rw [List.pairwise_map]
        refine List.Pairwise.imp (R := fun x y : N × N × N => x.1 ≠ y.1) ?_ ((List.pairwise_map.1 hp.sidesNodup).sublist List.filter_sublist)
        intro x y hxy t e e'
        cases e
        exact hxy (hp.tagS_inj (Option.some.inj e')).symm
      · intro o ho o' ho' t e e'
        obtain ⟨x, hx, rfl⟩ := List.mem_map.1 ho
        cases e
        have := hm o' ho'
        cases o' with
        | gen m => exact hp.tagS_names x (hsd x hx) (Option.some.inj e' ▸ hq m (List.mem_cons_of_mem _ this.1))
        | contr i a b => exact hp.tag_ne _ _ (Option.some.inj e')
        | clear => exact absurd e' (by simp [Op.tag])
        | side s a b =>
          have e2 := hp.tagS_inj (Option.some.inj e')
          subst e2
          exact this.1 (Finset.mem_union_right _ (List.mem_toFinset.2 (List.mem_map_of_mem hx)))
      · intro o ho o' ho' t e e'
        obtain ⟨x, hx, rfl⟩ := List.mem_map.1 ho
        cases e
        simp only [List.mem_append, List.mem_cons, List.mem_map] at ho'
        rcases ho' with rfl | ⟨y, hy, rfl⟩ | ho'
        · exact absurd e' (by simp [Op.tag])
        · exact hp.tag_ne _ _ (Option.some.inj e').symm
        · have := hm o' ho'
          cases o' with
          | gen m => exact c2 _ _ _ (hb x hx).1 (Option.some.inj e' ▸ hq m (List.mem_cons_of_mem _ this.1))
          | contr i a b =>
            have e2 := hp.tag2_inj (Option.some.inj e')
            subst e2
            exact this.1 (Finset.mem_union_right _ (List.mem_toFinset.2 (List.mem_map_of_mem hx)))
          | clear => exact absurd e' (by simp [Op.tag])
          | side s a b => exact hp.tag_ne _ _ (Option.some.inj e').symm
    · exact ih C D S hn.2 (fun m hm => hq m (List.mem_cons_of_mem _ hm))

/-! ### Operands computed before -/

theorem good_sides (C : Finset N) (R : List (Op N)) (hR : Good p C R) : ∀ l : List (N × N × N), (∀ x ∈ l, x.2.1 ∈ C ∧ x.2.2 ∈ C) → Good p C ((l.map fun x => Op.side x.1 x.2.1 x.2.2) ++ R) := by
  intro l
  induction l with
  | nil => intro _; exact hR
  | cons x l ih =>
    intro h
    refine ⟨fun y hy => ?_, trivial, ih fun y hy => h y (List.mem_cons_of_mem _ hy)⟩
    have := h x List.mem_cons_self
    simp only [Op.operands, List.mem_cons, List.not_mem_nil, or_false] at hy
    rcases hy with rfl | rfl
    · exact this.1
    · exact this.2

theorem good_contrs (C : Finset N) (R : List (Op N)) (hR : Good p C (.clear :: R)) : ∀ l : List (Nat × N × N), (∀ x ∈ l, x.2.1 ∈ C ∧ x.2.2 ∈ C) →
    Good p C ((l.map fun x => Op.contr x.1 x.2.1 x.2.2) ++ .clear :: R) := by
  intro l
  induction l with
  | nil => intro _; exact hR
  | cons x l ih =>
    intro h
    refine ⟨fun y hy => ?_, ?_, ih fun y hy => h y (List.mem_cons_of_mem _ hy)⟩
    · have := h x List.mem_cons_self
      simp only [Op.operands, List.mem_cons, List.not_mem_nil, or_false] at hy
      rcases hy with rfl | rfl
      · exact this.1
      · exact this.2
    · cases l with
      | nil => exact ⟨_, _, rfl, trivial⟩
      | cons y l => exact ⟨_, _, rfl, trivial⟩

theorem good_opsFrom (need : N → Bool) (hneed : ∀ n, need n = true → Needed p n) : ∀ (l : List N) (C : Finset N) (D : Finset Nat) (S : Finset N), l.Nodup → (∀ x ∈ l, x ∉ C) → (∀ x ∈ l, x ∈ p.qprops) →
    l.Pairwise (fun n m => m ∉ p.sources n) → (∀ n ∈ l, n ∉ p.sources n) → (∀ n ∈ l, need n = true → ∀ s ∈ p.sources n, s ∈ C ∨ (s ∈ l ∧ need s = true)) → Good p C (opsFrom p need l C D S) := by
  intro l
  induction l with
  | nil => intro C D S _ _ _ _ _ _; trivial
  | cons n l ih =>
    intro C D S hn hC hq hpw hself hsrc
    rw [List.nodup_cons] at hn
    rw [List.pairwise_cons] at hpw
    unfold opsFrom
    split
    · rename_i hnn
      have hg := ih (insert n C) (D ∪ ((canBeComputed p (insert n C) D).map Prod.fst).toFinset) (S ∪ ((canSides p (insert n C) S).map Prod.fst).toFinset) hn.2 (fun x hx => by
          rw [Finset.mem_insert]
          rintro (rfl | h)
          · exact hn.1 hx
          · exact hC x (List.mem_cons_of_mem _ hx) h) (fun x hx => hq x (List.mem_cons_of_mem _ hx)) hpw.2 (fun x hx => hself x (List.mem_cons_of_mem _ hx)) (fun m hm hm' s hs => by
          rcases hsrc m (List.mem_cons_of_mem _ hm) hm' s hs with h | ⟨h, h'⟩
          · exact .inl (Finset.mem_insert_of_mem h)
          · rcases List.mem_cons.1 h with rfl | h
            · exact .inl (Finset.mem_insert_self _ _)
            · exact .inr ⟨h, h'⟩)
      unfold blockOps
      simp only [List.cons_append, List.append_assoc]
      refine ⟨fun s hs => ?_, ⟨hC n List.mem_cons_self, hq n List.mem_cons_self, hneed n hnn⟩, ?_⟩
      · rcases hsrc n List.mem_cons_self hnn s hs with h | ⟨h, -⟩
        · exact h
        · rcases List.mem_cons.1 h with rfl | h
          · exact absurd hs (hself s List.mem_cons_self)
          · exact absurd hs (hpw.1 s h)
      · refine good_contrs p (insert n C) _ ⟨by simp [Op.operands], trivial, ?_⟩ _ (fun x hx => ?_)
        · refine good_sides p (insert n C) _ hg _ (fun x hx => ?_)
          have := (mem_canSides p).1 hx
          exact ⟨this.2.1, this.2.2.1⟩
        · have := (mem_canBeComputed p).1 hx
          exact ⟨this.2.1, this.2.2.1⟩
    · rename_i hnn
      refine ih C D S hn.2 (fun x hx => hC x (List.mem_cons_of_mem _ hx)) (fun x hx => hq x (List.mem_cons_of_mem _ hx)) hpw.2 (fun x hx => hself x (List.mem_cons_of_mem _ hx)) (fun m hm hm' s hs => ?_)
      rcases hsrc m (List.mem_cons_of_mem _ hm) hm' s hs with h | ⟨h, h'⟩
      · exact .inl h
      · rcases List.mem_cons.1 h with rfl | h
        · exact absurd h' hnn
        · exact .inr ⟨h, h'⟩

/-- the original sources do not change the sequence, if they are not used by the contractions -/
theorem opsFrom_congr (need : N → Bool) (h1 : ∀ x ∈ p.contr, x.1 ∉ p.ori ∧ x.2 ∉ p.ori) (h2 : ∀ x ∈ p.sides, x.2.1 ∉ p.ori ∧ x.2.2 ∉ p.ori) :
    ∀ (l : List N) (C C' : Finset N) (D : Finset Nat) (S : Finset N), (∀ x, x ∉ p.ori → (x ∈ C ↔ x ∈ C')) → opsFrom p need l C D S = opsFrom p need l C' D S := by
  intro l
  induction l with
  | nil => intro _ _ _ _ _; rfl
  | cons n l ih =>
    intro C C' D S h
    have hc : ∀ x, x ∉ p.ori → (x ∈ insert n C ↔ x ∈ insert n C') := fun x hx => by rw [Finset.mem_insert, Finset.mem_insert, h x hx]
    have e1 : canBeComputed p (insert n C) D = canBeComputed p (insert n C') D := by
      unfold canBeComputed
      congr 1
      refine List.filter_congr fun x hx => ?_
      obtain ⟨y, hy, rfl⟩ := List.mem_map.1 hx
      have := h1 y.1 (List.fst_mem_of_mem_zipIdx hy)
      refine decide_eq_decide.2 ?_
      simp only
      rw [hc _ this.1, hc _ this.2]
    have e2 : canSides p (insert n C) S = canSides p (insert n C') S := by
      unfold canSides
      refine List.filter_congr fun x hx => ?_
      have := h2 x hx
      refine decide_eq_decide.2 ?_
      rw [hc _ this.1, hc _ this.2]
    unfold opsFrom
    rw [ih (insert n C) (insert n C') _ _ hc, ih C C' D S h]
    unfold blockOps
    rw [e1, e2]

end

end Nissa.Hit
