import Verif.Ib.PropsHit1

/-! # The looper on the hits: the constructor finds the dependencies -/

set_option linter.all false

namespace Nissa.Hit

section
variable {N V : Type} [LinearOrder N] (p : Plan N V)

/-- a propagator is needed if used by a contraction, by a side of the handcuffs or as a source of a needed propagator -/
inductive Needed : N → Prop
  | contr (x : N × N) (h : x ∈ p.contr) (n : N) (hn : n = x.1 ∨ n = x.2) : Needed n
  | side (x : N × N × N) (h : x ∈ p.sides) (n : N) (hn : n = x.2.1 ∨ n = x.2.2) : Needed n
  | source (m n : N) (h : Needed m) (hn : n ∈ p.sources m) : Needed n

/-- the conditions on the input -/
structure Valid : Prop where
  names : (p.ori ++ p.qprops).Nodup
  oriSources : ∀ s ∈ p.ori, p.sources s = []
  topo : ∀ i (h : i < p.qprops.length), ∀ s ∈ p.sources p.qprops[i], s ∈ p.ori ∨ s ∈ p.qprops.take i
  srcNodup : ∀ n ∈ p.qprops, (p.sources n).Nodup
  contrNames : ∀ x ∈ p.contr, x.1 ∈ keys p ∧ x.2 ∈ keys p ∧ ¬(x.1 ∈ p.ori ∧ x.2 ∈ p.ori)
  sideNames : ∀ x ∈ p.sides, x.2.1 ∈ keys p ∧ x.2.2 ∈ keys p ∧ ¬(x.2.1 ∈ p.ori ∧ x.2.2 ∈ p.ori)
  sidesNodup : (p.sides.map Prod.fst).Nodup
  tag2_inj : Function.Injective p.tag2
  tagS_inj : Function.Injective p.tagS
  tag_ne : ∀ i s, p.tag2 i ≠ p.tagS s
  tag2_names : ∀ i < p.contr.length, p.tag2 i ∉ p.qprops
  tagS_names : ∀ x ∈ p.sides, p.tagS x.1 ∉ p.qprops
  /-- there is something to compute -/
  work : p.contr ≠ [] ∨ p.sides ≠ []
  /-- if the number of propagators in memory is limited -/
  limit : p.nMax ≠ 0 → 2 ≤ p.nMax ∧ (∀ n ∈ p.qprops, Needed p n → (p.sources n).length + 1 ≤ p.nMax) ∧ (∀ s ∈ p.ori, Needed p s) ∧
    (∀ x ∈ p.contr, x.1 ∉ p.ori ∧ x.2 ∉ p.ori) ∧ (∀ x ∈ p.sides, x.2.1 ∉ p.ori ∧ x.2.2 ∉ p.ori)

/-- the tags of the contractions and sides using a propagator -/
def BaseTag (n t : N) : Prop :=
  (∃ x ∈ p.contr.zipIdx, (n = x.1.1 ∨ n = x.1.2) ∧ t = p.tag2 x.2) ∨ (∃ x ∈ p.sides, (n = x.2.1 ∨ n = x.2.2) ∧ t = p.tagS x.1)

variable {p}

theorem Valid.pos (hp : Valid p) {n s : N} (hn : n ∈ p.qprops) (hs : s ∈ p.sources n) : s ∈ p.ori ∨ (s ∈ p.qprops ∧ p.qprops.idxOf s < p.qprops.idxOf n) := by
  have hi := List.idxOf_lt_length_iff.2 hn
  have := hp.topo (p.qprops.idxOf n) hi s (by rw [List.getElem_idxOf hi]; exact hs)
  rcases this with h | h
  · exact .inl h
  · right
    refine ⟨List.mem_of_mem_take h, ?_⟩
    obtain ⟨j, hj, e⟩ := List.mem_iff_getElem.1 h
    rw [List.getElem_take] at e
    have hj' : j < p.qprops.length := by rw [List.length_take] at hj; omega
    have : p.qprops.idxOf s = j := by
      rw [← e]; exact (List.nodup_append.1 hp.names).2.1.idxOf_getElem j hj'
    rw [List.length_take] at hj
    omega

theorem Valid.nq (hp : Valid p) : p.qprops.Nodup := (List.nodup_append.1 hp.names).2.1

theorem Valid.dis (hp : Valid p) {n : N} (h : n ∈ p.ori) : n ∉ p.qprops := fun h' => (List.nodup_append.1 hp.names).2.2 n h n h' rfl

theorem Valid.self (hp : Valid p) {n : N} (hn : n ∈ p.qprops) : n ∉ p.sources n := by
  intro h
  rcases hp.pos hn h with h | h
  · exact hp.dis h hn
  · omega

theorem Valid.srcKeys (hp : Valid p) {n s : N} (hn : n ∈ keys p) (hs : s ∈ p.sources n) : s ∈ keys p := by
  rcases List.mem_append.1 hn with h | h
  · rw [hp.oriSources n h] at hs; simp at hs
  · rcases hp.pos h hs with h | h
    · exact List.mem_append_left _ h
    · exact List.mem_append_right _ h.1

theorem Valid.pairwise (hp : Valid p) : p.qprops.Pairwise (fun n m => m ∉ p.sources n) := by
  rw [List.pairwise_iff_getElem]
  intro i j hi hj hij h
  rcases hp.pos (List.getElem_mem hi) h with h | h
  · exact hp.dis h (List.getElem_mem hj)
  · rw [hp.nq.idxOf_getElem, hp.nq.idxOf_getElem] at h
    omega

theorem Needed.keys (hp : Valid p) {n : N} (h : Needed p n) : n ∈ keys p := by
  induction h with
  | contr x h n hn =>
    have := hp.contrNames x h
    rcases hn with rfl | rfl
    · exact this.1
    · exact this.2.1
  | side x h n hn =>
    have := hp.sideNames x h
    rcases hn with rfl | rfl
    · exact this.1
    · exact this.2.1
  | source m n h hn ih => exact hp.srcKeys ih hn

variable (p)

/-! ### The constructor -/

/-- invariant of the search -/
structure Search (s : (N → Finset N) × List N) : Prop where
  sound : ∀ n t, t ∈ s.1 n → BaseTag p n t ∨ (n ∈ p.sources t ∧ s.1 t ≠ ∅)
  base : ∀ n t, BaseTag p n t → t ∈ s.1 n
  closed : ∀ t n, n ∈ p.sources t → s.1 t ≠ ∅ → t ∈ s.1 n ∨ t ∈ s.2
  old : ∀ x ∈ s.2, s.1 x ≠ ∅
  needed : ∀ n, s.1 n ≠ ∅ → Needed p n

theorem foldl_ins (t : N) (ns : List N) : ∀ (s : (N → Finset N) × List N),
    (∀ n u, u ∈ (ns.foldl (fun (s : (N → Finset N) × List N) (n : N) => (Function.update s.1 n (insert t (s.1 n)), s.2 ++ [n])) s).1 n ↔ u ∈ s.1 n ∨ (n ∈ ns ∧ u = t)) ∧
    (ns.foldl (fun (s : (N → Finset N) × List N) (n : N) => (Function.update s.1 n (insert t (s.1 n)), s.2 ++ [n])) s).2 = s.2 ++ ns := by
  induction ns with
  | nil => intro s; simp
  | cons a l ih =>
    intro s
    rw [List.foldl_cons]
    obtain ⟨h1, h2⟩ := ih (Function.update s.1 a (insert t (s.1 a)), s.2 ++ [a])
    refine ⟨fun n u => ?_, by rw [h2]; simp⟩
    rw [h1]
    by_cases h : n = a
    · subst h
      simp only [Function.update_self, Finset.mem_insert, List.mem_cons, true_or, true_and]
      tauto
    · simp only [Function.update_of_ne h, List.mem_cons, h, false_or]

theorem foldl_insM {α : Type} (tag : α → N) (ops : α → List N) (f : (N → Finset N) × List N → α → (N → Finset N) × List N)
    (hf : ∀ s x, f s x = (ops x).foldl (fun (s : (N → Finset N) × List N) (n : N) => (Function.update s.1 n (insert (tag x) (s.1 n)), s.2 ++ [n])) s) :
    ∀ (l : List α) (s : (N → Finset N) × List N),
    (∀ n u, u ∈ (l.foldl f s).1 n ↔ u ∈ s.1 n ∨ ∃ x ∈ l, n ∈ ops x ∧ u = tag x) ∧ (l.foldl f s).2 = s.2 ++ l.flatMap ops := by
  intro l
  induction l with
  | nil => intro s; simp
  | cons a l ih =>
    intro s
    rw [List.foldl_cons]
    obtain ⟨h1, h2⟩ := ih (f s a)
    obtain ⟨g1, g2⟩ := foldl_ins (tag a) (ops a) s
    rw [← hf] at g2
    refine ⟨fun n u => ?_, by rw [h2, g2, List.flatMap_cons, List.append_assoc]⟩
    rw [h1, hf, g1]
    simp only [List.mem_cons, exists_eq_or_imp]
    tauto

theorem depInit_spec : (∀ n t, t ∈ (depInit p).1 n ↔ BaseTag p n t) ∧ (∀ x, x ∈ (depInit p).2 ↔ ∃ t, BaseTag p x t) := by
  unfold depInit
  simp only
  obtain ⟨a1, a2⟩ := foldl_insM (fun x : (N × N) × Nat => p.tag2 x.2) (fun x => [x.1.1, x.1.2])
    (fun s x => [x.1.1, x.1.2].foldl (fun (s : (N → Finset N) × List N) (n : N) => (Function.update s.1 n (insert (p.tag2 x.2) (s.1 n)), s.2 ++ [n])) s) (fun s x => rfl)
    p.contr.zipIdx ((fun _ => (∅ : Finset N)), ([] : List N))
  set s1 := p.contr.zipIdx.foldl (fun s x => [x.1.1, x.1.2].foldl (fun (s : (N → Finset N) × List N) (n : N) => (Function.update s.1 n (insert (p.tag2 x.2) (s.1 n)), s.2 ++ [n])) s)
    ((fun _ => (∅ : Finset N)), ([] : List N)) with hs1
  obtain ⟨b1, b2⟩ := foldl_insM (fun x : N × N × N => p.tagS x.1) (fun x => [x.2.1, x.2.2])
    (fun s x => [x.2.1, x.2.2].foldl (fun (s : (N → Finset N) × List N) (n : N) => (Function.update s.1 n (insert (p.tagS x.1) (s.1 n)), s.2 ++ [n])) s) (fun s x => rfl)
    p.sides s1
  constructor
  · intro n t
    refine (b1 n t).trans ?_
    rw [a1]
    simp only [Finset.notMem_empty, false_or, List.mem_cons, List.not_mem_nil, or_false]
    rfl
  · intro x
    have : x ∈ s1.2 ++ p.sides.flatMap (fun x => [x.2.1, x.2.2]) ↔ ∃ t, BaseTag p x t := by
      rw [a2]
      simp only [List.nil_append, List.mem_append, List.mem_flatMap, List.mem_cons, List.not_mem_nil, or_false]
      constructor
      · rintro (⟨y, hy, h⟩ | ⟨y, hy, h⟩)
        · exact ⟨_, .inl ⟨y, hy, h, rfl⟩⟩
        · exact ⟨_, .inr ⟨y, hy, h, rfl⟩⟩
      · rintro ⟨t, ⟨y, hy, h, -⟩ | ⟨y, hy, h, -⟩⟩
        · exact .inl ⟨y, hy, h⟩
        · exact .inr ⟨y, hy, h⟩
    rw [← this, ← b2]

theorem baseTag_needed {n t : N} (h : BaseTag p n t) : Needed p n := by
  rcases h with ⟨x, hx, h, -⟩ | ⟨x, hx, h, -⟩
  · exact .contr x.1 (List.fst_mem_of_mem_zipIdx hx) n h
  · exact .side x hx n h

theorem search_init : Search p (depInit p) := by
  obtain ⟨h1, h2⟩ := depInit_spec p
  refine ⟨fun n t h => .inl ((h1 n t).1 h), fun n t h => (h1 n t).2 h, fun t n _ h => .inr ?_, fun x hx => ?_, fun n h => ?_⟩
  · obtain ⟨u, hu⟩ := Finset.nonempty_iff_ne_empty.2 h
    exact (h2 t).2 ⟨u, (h1 t u).1 hu⟩
  · obtain ⟨t, ht⟩ := (h2 x).1 hx
    exact Finset.nonempty_iff_ne_empty.1 ⟨t, (h1 x t).2 ht⟩
  · obtain ⟨u, hu⟩ := Finset.nonempty_iff_ne_empty.2 h
    exact baseTag_needed p ((h1 n u).1 hu)

theorem depTurn_spec (s : (N → Finset N) × List N) :
    (∀ n u, u ∈ (depTurn p s).1 n ↔ u ∈ s.1 n ∨ (u ∈ s.2 ∧ n ∈ p.sources u)) ∧ (depTurn p s).2 = s.2.flatMap p.sources := by
  obtain ⟨h1, h2⟩ := foldl_insM (fun q : N => q) (fun q => p.sources q)
    (fun t q => (p.sources q).foldl (fun (t : (N → Finset N) × List N) n => (Function.update t.1 n (insert q (t.1 n)), t.2 ++ [n])) t) (fun s x => rfl) s.2 (s.1, [])
  refine ⟨fun n u => (h1 n u).trans ?_, by rw [← List.nil_append (s.2.flatMap p.sources)]; exact h2⟩
  constructor
  · rintro (h | ⟨x, hx, h, rfl⟩)
    · exact .inl h
    · exact .inr ⟨hx, h⟩
  · rintro (h | ⟨h, h'⟩)
    · exact .inl h
    · exact .inr ⟨u, h, h', rfl⟩

theorem search_turn (s : (N → Finset N) × List N) (h : Search p s) : Search p (depTurn p s) := by
  obtain ⟨h1, h2⟩ := depTurn_spec p s
  have mono : ∀ n, s.1 n ≠ ∅ → (depTurn p s).1 n ≠ ∅ := fun n hn => by
    obtain ⟨u, hu⟩ := Finset.nonempty_iff_ne_empty.2 hn
    exact Finset.nonempty_iff_ne_empty.1 ⟨u, (h1 n u).2 (.inl hu)⟩
  refine ⟨fun n t ht => ?_, fun n t ht => (h1 n t).2 (.inl (h.base n t ht)), fun t n hn ht => ?_, fun x hx => ?_, fun n hn => ?_⟩
  · rcases (h1 n t).1 ht with ht | ⟨ht, hn⟩
    · rcases h.sound n t ht with h' | h'
      · exact .inl h'
      · exact .inr ⟨h'.1, mono _ h'.2⟩
    · exact .inr ⟨hn, mono _ (h.old t ht)⟩
  · by_cases hc : s.1 t = ∅
    · right
      obtain ⟨u, hu⟩ := Finset.nonempty_iff_ne_empty.2 ht
      rcases (h1 t u).1 hu with hu | ⟨hu, hu'⟩
      · rw [hc] at hu; simp at hu
      · rw [h2, List.mem_flatMap]; exact ⟨u, hu, hu'⟩
    · left
      rcases h.closed t n hn hc with h' | h'
      · exact (h1 n t).2 (.inl h')
      · exact (h1 n t).2 (.inr ⟨h', hn⟩)
  · rw [h2, List.mem_flatMap] at hx
    obtain ⟨q, hq, hx⟩ := hx
    exact Finset.nonempty_iff_ne_empty.1 ⟨q, (h1 x q).2 (.inr ⟨hq, hx⟩)⟩
  · obtain ⟨u, hu⟩ := Finset.nonempty_iff_ne_empty.2 hn
    rcases (h1 n u).1 hu with hu | ⟨hu, hu'⟩
    · exact h.needed n (Finset.nonempty_iff_ne_empty.1 ⟨u, hu⟩)
    · exact .source u n (h.needed u (h.old u hu)) hu'

theorem depLoop_search : ∀ (fuel : Nat) (s : (N → Finset N) × List N) (pd : N → Finset N), Search p s → depLoop p fuel s = some pd → Search p (pd, []) := by
  intro fuel
  induction fuel with
  | zero =>
    intro s pd hs h
    unfold depLoop at h
    split at h
    · rename_i e
      cases h
      rw [← e]; exact hs
    · simp at h
  | succ f ih =>
    intro s pd hs h
    unfold depLoop at h
    split at h
    · rename_i e
      cases h
      rw [← e]; exact hs
    · exact ih _ pd (search_turn p s hs) h

/-- the search ends -/
theorem depLoop_ends (hp : Valid p) : ∀ (fuel : Nat) (s : (N → Finset N) × List N), (∀ x ∈ s.2, x ∈ keys p) → (∀ x ∈ s.2, x ∈ p.qprops → p.qprops.idxOf x + 1 < fuel) → (s.2 = [] ∨ 0 < fuel) →
    ∃ pd, depLoop p fuel s = some pd := by
  intro fuel
  induction fuel with
  | zero =>
    intro s _ _ h
    unfold depLoop
    rcases h with h | h
    · exact ⟨_, if_pos h⟩
    · omega
  | succ f ih =>
    intro s hk hr _
    unfold depLoop
    by_cases hs : s.2 = []
    · exact ⟨_, if_pos hs⟩
    · rw [if_neg hs]
      have e := (depTurn_spec p s).2
      have hq : ∀ x ∈ (depTurn p s).2, ∃ q ∈ s.2, x ∈ p.sources q := fun x hx => by rw [e, List.mem_flatMap] at hx; exact hx
      refine ih _ (fun x hx => ?_) (fun x hx hxq => ?_) ?_
      · obtain ⟨q, h1, h2⟩ := hq x hx
        exact hp.srcKeys (hk q h1) h2
      · obtain ⟨q, h1, h2⟩ := hq x hx
        have hq' : q ∈ p.qprops := by
          rcases List.mem_append.1 (hk q h1) with h | h
          · rw [hp.oriSources q h] at h2; simp at h2
          · exact h
        have := hr q h1 hq'
        rcases hp.pos hq' h2 with h | h
        · exact absurd hxq (hp.dis h)
        · omega
      · by_cases hd : (depTurn p s).2 = []
        · exact .inl hd
        · right
          obtain ⟨x, hx⟩ := List.exists_mem_of_ne_nil _ hd
          obtain ⟨q, h1, h2⟩ := hq x hx
          have hq' : q ∈ p.qprops := by
            rcases List.mem_append.1 (hk q h1) with h | h
            · rw [hp.oriSources q h] at h2; simp at h2
            · exact h
          have := hr q h1 hq'
          omega

theorem construct_ends (hp : Valid p) {fuel : Nat} (hf : p.qprops.length + 1 < fuel) : ∃ pd, construct p fuel = some pd := by
  refine depLoop_ends p hp fuel _ (fun x hx => ?_) (fun x hx hq => ?_) (.inr (by omega))
  · obtain ⟨t, ht⟩ := ((depInit_spec p).2 x).1 hx
    exact (baseTag_needed p ht).keys hp
  · have := List.idxOf_lt_length_iff.2 hq
    omega

/-- what is found -/
structure Deps (pd : N → Finset N) : Prop where
  mem : ∀ n t, t ∈ pd n ↔ BaseTag p n t ∨ (n ∈ p.sources t ∧ Needed p t)
  needed : ∀ n, pd n ≠ ∅ ↔ Needed p n

theorem construct_deps {fuel : Nat} {pd : N → Finset N} (h : construct p fuel = some pd) : Deps p pd := by
  have hs := depLoop_search p fuel _ pd (search_init p) h
  have hn : ∀ n, pd n ≠ ∅ ↔ Needed p n := fun n => ⟨hs.needed n, fun h => by
    induction h with
    | contr x h n hn =>
      obtain ⟨i, hi, e⟩ := List.mem_iff_getElem.1 h
      exact Finset.nonempty_iff_ne_empty.1 ⟨_, hs.base n (p.tag2 i) (.inl ⟨(x, i), by rw [← e]; exact List.mk_mem_zipIdx_iff_getElem?.2 (List.getElem?_eq_getElem hi), hn, rfl⟩)⟩
    | side x h n hn => exact Finset.nonempty_iff_ne_empty.1 ⟨_, hs.base n _ (.inr ⟨x, h, hn, rfl⟩)⟩
    | source m n h hn ih =>
      rcases hs.closed m n hn ih with h' | h'
      · exact Finset.nonempty_iff_ne_empty.1 ⟨m, h'⟩
      · simp at h'⟩
  refine ⟨fun n t => ⟨fun ht => ?_, ?_⟩, hn⟩
  · rcases hs.sound n t ht with h | h
    · exact .inl h
    · exact .inr ⟨h.1, (hn t).1 h.2⟩
  · rintro (h | ⟨h, h'⟩)
    · exact hs.base n t h
    · rcases hs.closed t n h ((hn t).2 h') with h | h
      · exact h
      · simp at h

end

end Nissa.Hit
