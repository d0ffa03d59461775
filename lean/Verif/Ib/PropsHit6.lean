import Verif.Ib.PropsHit5

/-! # The looper on the hits: a hit -/

set_option linter.all false

namespace Nissa.Hit

section
variable {N V : Type} [LinearOrder N] (p : Plan N V)

/-- specification: the content of each propagator, computed one after the other, with no regard for the memory -/
def content (src : N → V) : N → V := p.qprops.foldl (fun v n => Function.update v n (p.gen n ((p.sources n).map v))) src

/-- specification: the results of all the contractions, by index -/
def results2 (val : N → V) : List (Nat × V × V) := p.contr.zipIdx.map fun x => (x.2, val x.1.1, val x.1.2)

/-- specification: the results of all the sides, by name -/
def resultsS (val : N → V) : List (N × V × V) := p.sides.map fun x => (x.1, val x.2.1, val x.2.2)

/-- state between two hits: nothing in memory nor on disk -/
structure Idle (pd : N → Finset N) (st : St N V) : Prop where
  dep : st.propDep = pd
  mem : ∀ x, st.mem x = none
  disk : ∀ x, st.disk x = none
  lib : ∀ x, st.lib x = none
  passed : p.nMax ≠ 0 → st.nPassedDep = st.orderedDep.length
  peak : p.nMax ≠ 0 → st.peak ≤ max p.nMax p.ori.length

variable {p}

theorem fold_content_ne (src : N → V) : ∀ (l : List N) (v : N → V) (x : N), x ∉ l → l.foldl (fun v n => Function.update v n (p.gen n ((p.sources n).map v))) v x = v x := by
  intro l
  induction l with
  | nil => intro v x _; rfl
  | cons a l ih =>
    intro v x hx
    rw [List.mem_cons, not_or] at hx
    rw [List.foldl_cons, ih _ x hx.2, Function.update_of_ne hx.1]

/-- the specification has the content required: the sources are what was drawn, each propagator is computed from the content of its sources -/
theorem content_spec (hp : Valid p) (src : N → V) : (∀ s ∈ p.ori, content p src s = src s) ∧ ∀ n ∈ p.qprops, content p src n = p.gen n ((p.sources n).map (content p src)) := by
  refine ⟨fun s hs => fold_content_ne src _ _ _ (hp.dis hs), fun n hn => ?_⟩
  obtain ⟨l1, l2, e⟩ := List.append_of_mem hn
  have hnd := hp.nq
  have hpw := hp.pairwise
  rw [e] at hnd hpw
  have hnd2 := (List.nodup_append.1 hnd).2.1
  have hpw2 := (List.pairwise_append.1 hpw).2.1
  have e1 : ∀ x, x ∉ n :: l2 → content p src x = l1.foldl (fun v n => Function.update v n (p.gen n ((p.sources n).map v))) src x := fun x hx => by
    unfold content
    rw [e, List.foldl_append]
    exact fold_content_ne src _ _ _ hx
  have e2 : content p src n = p.gen n ((p.sources n).map (l1.foldl (fun v n => Function.update v n (p.gen n ((p.sources n).map v))) src)) := by
    unfold content
    rw [e, List.foldl_append, List.foldl_cons, fold_content_ne src _ _ _ (List.nodup_cons.1 hnd2).1, Function.update_self]
  rw [e2]
  congr 1
  refine List.map_congr_left fun s hs => (e1 s ?_).symm
  rw [List.mem_cons, not_or]
  refine ⟨?_, fun h => (List.pairwise_cons.1 hpw2).1 s h hs⟩
  rintro rfl
  exact hp.self hn hs

/-! ### The sources -/

theorem startHit_ok (hp : Valid p) (src : N → V) : ∀ (l : List N) (st : St N V), l.Nodup → (∀ x ∈ l, x ∈ p.ori ∧ st.mem x = none) → (∀ x, st.mem x ≠ none → x ∈ p.ori) →
    ∃ st', l.foldl (fun st s => fill p s (src s) st) st = st' ∧ (∀ x ∈ l, ∃ ad, st'.mem x = some (ad, src x)) ∧ (∀ x, x ∉ l → st'.mem x = st.mem x) ∧ ctrl st' = ctrl st ∧ st'.disk = st.disk ∧ st'.lib = st.lib ∧
      st'.out2 = st.out2 ∧ st'.outS = st.outS ∧ (∀ M, p.ori.length ≤ M → st.peak ≤ M → st'.peak ≤ M) := by
  intro l
  induction l with
  | nil => intro st _ _ _; exact ⟨st, rfl, fun x hx => by simp at hx, fun _ _ => rfl, rfl, rfl, rfl, rfl, rfl, fun _ _ h => h⟩
  | cons a l ih =>
    intro st hn hm ho
    rw [List.nodup_cons] at hn
    have hma := (hm a List.mem_cons_self).2
    have e : fill p a (src a) st = { st with mem := Function.update st.mem a (some (st.fresh, src a)), fresh := st.fresh + 1, peak := max st.peak (nAlloc p { st with mem := Function.update st.mem a (some (st.fresh, src a)), fresh := st.fresh + 1 }) } := by
      unfold fill
      rw [hma]
    have hne : ∀ x ∈ l, x ≠ a := fun x hx h => hn.1 (h ▸ hx)
    have ho1 : ∀ x, (fill p a (src a) st).mem x ≠ none → x ∈ p.ori := fun x hx => by
      rw [e] at hx
      by_cases hxa : x = a
      · subst hxa; exact (hm x List.mem_cons_self).1
      · simp only [Function.update_of_ne hxa] at hx; exact ho x hx
    obtain ⟨st', a1, a2, a3, a4, a5, a6, a7, a8, a9⟩ := ih (fill p a (src a) st) hn.2 (fun x hx => ⟨(hm x (List.mem_cons_of_mem _ hx)).1, by
      rw [e]; simp only [Function.update_of_ne (hne x hx)]; exact (hm x (List.mem_cons_of_mem _ hx)).2⟩) ho1
    refine ⟨st', a1, fun x hx => ?_, fun x hx => ?_, a4.trans (fill_ctrl p a _ st), ?_, ?_, ?_, ?_, fun M hM hp' => a9 M hM ?_⟩
    · rcases List.mem_cons.1 hx with rfl | hx
      · rw [a3 x hn.1, e]; exact ⟨_, Function.update_self ..⟩
      · exact a2 x hx
    · rw [List.mem_cons, not_or] at hx
      rw [a3 x hx.2, e]
      simp only [Function.update_of_ne hx.1]
    · rw [a5, e]
    · rw [a6, e]
    · rw [a7, e]
    · rw [a8, e]
    · rw [e] at ho1 ⊢
      refine max_le hp' (le_trans ?_ hM)
      rw [nAlloc_card p hp.names]
      refine le_trans (Finset.card_le_card (t := p.ori.toFinset) fun x hx => ?_) (List.toFinset_card_le _)
      rw [Finset.mem_filter, Option.isSome_iff_ne_none] at hx
      exact List.mem_toFinset.2 (ho1 x hx.2)

/-! ### The first run -/

/-- what the first run does not touch -/
def memp (st : St N V) := (st.mem, st.disk, st.out2, st.outS, st.peak, st.nPassedDep)

theorem dry_all (hp : Valid p) : ∀ (rem : List (Op N)) (st : St N V), Tags p rem → (∀ o ∈ rem, ∀ x ∈ o.operands p, ∀ t, o.tag p = some t → t ∈ st.propDep x) → (∀ n, Op.gen n ∈ rem → n ∈ p.qprops) →
    (∀ x, st.lib x = none) → ∃ st', rem.foldlM (exec p true) st = .ok st' ∧ memp st' = memp st ∧ (∀ x, st'.lib x = none) ∧ st'.orderedDep = st.orderedDep ++ rem.flatMap (Op.operands p) := by
  intro rem
  induction rem with
  | nil => intro st _ _ _ hl; exact ⟨st, rfl, rfl, hl, by simp⟩
  | cons o rem ih =>
    intro st ht hd hg hl
    have step : ∃ s1, exec p true st o = .ok s1 ∧ memp s1 = memp st ∧ ∀ x, s1.lib x = none := by
      cases o with
      | clear => exact ⟨_, rfl, rfl, fun _ => rfl⟩
      | gen n =>
        have hnq := hg n List.mem_cons_self
        obtain ⟨s1, h1⟩ := dropGen_ok (n := n) (p.sources n) (hp.srcNodup n hnq) { { st with orderedDep := st.orderedDep ++ p.sources n } with computedProps := insert n st.computedProps } (fun x hx =>
          hd (.gen n) List.mem_cons_self x hx n rfl)
        obtain ⟨-, h3, -, -⟩ := dropGen _ _ _ h1
        refine ⟨s1, ?_, by rw [h3]; rfl, fun x => by rw [h3]; exact hl x⟩
        show genStep p true n st = _
        unfold genStep
        refine (bind_of_ok (prepare_dry p _ st) _).trans ?_
        refine (bind_of_ok (a := { st with orderedDep := st.orderedDep ++ p.sources n }) rfl _).trans ?_
        exact (bind_of_ok h1 _).trans rfl
      | contr i a b =>
        refine ⟨dropDep (p.tag2 i) a b ({ st with computed2pts := insert i st.computed2pts, orderedDep := st.orderedDep ++ [a, b] } : St N V), ?_, rfl, fun x => hl x⟩
        show contrStep p true i a b st = _
        unfold contrStep
        exact (bind_of_ok (prepare_dry p _ _) _).trans rfl
      | side i a b =>
        refine ⟨dropDep (p.tagS i) a b ({ st with computedSides := insert i st.computedSides, orderedDep := st.orderedDep ++ [a, b] } : St N V), ?_, rfl, fun x => hl x⟩
        show sideStep p true i a b st = _
        unfold sideStep
        exact (bind_of_ok (prepare_dry p _ _) _).trans rfl
    obtain ⟨s1, h1, h2, h3⟩ := step
    have hc := exec_ctrl p true o st s1 h1
    obtain ⟨s2, b1, b2, b3, b4⟩ := ih s1 (List.pairwise_cons.1 ht).2 (fun o' ho' x hx t e => by
      have := hd o' (List.mem_cons_of_mem _ ho') x hx t e
      rw [hc.dep]
      split
      · unfold Op.dropTag
        split
        · rename_i t0 e0
          rw [Finset.mem_erase]
          refine ⟨?_, this⟩
          rintro rfl
          exact (List.pairwise_cons.1 ht).1 o' ho' _ e0 e
        · exact this
      · exact this) (fun n hn => hg n (List.mem_cons_of_mem _ hn)) h3
    refine ⟨s2, ?_, b2.trans h2, b3, ?_⟩
    · rw [List.foldlM_cons]; exact (bind_of_ok h1 _).trans b1
    · rw [b4, hc.ord, List.flatMap_cons, if_pos rfl, List.append_assoc]

/-! ### The second run -/

theorem ops_ctrl : ∀ (rem : List (Op N)) (st st' : St N V), rem.foldlM (exec p false) st = .ok st' →
    st'.orderedDep = st.orderedDep ∧ st'.nPassedDep = st.nPassedDep + (rem.flatMap (Op.operands p)).length ∧ (∀ i, i ∈ st'.computed2pts ↔ i ∈ st.computed2pts ∨ ∃ a b, Op.contr i a b ∈ rem) ∧
      (∀ s, s ∈ st'.computedSides ↔ s ∈ st.computedSides ∨ ∃ a b, Op.side s a b ∈ rem) := by
  intro rem
  induction rem with
  | nil => intro st st' h; cases h; simp
  | cons o rem ih =>
    intro st st' h
    rw [List.foldlM_cons] at h
    obtain ⟨s1, h1, h2⟩ := bind_ok h
    have hc := exec_ctrl p false _ _ _ h1
    obtain ⟨a1, a2, a3, a4⟩ := ih s1 st' h2
    refine ⟨?_, ?_, fun i => ?_, fun s => ?_⟩
    · rw [a1, hc.ord]; rfl
    · rw [a2, hc.passed, List.flatMap_cons, List.length_append]
      simp only [Bool.false_eq_true, if_false]
      omega
    · rw [a3, hc.two]
      cases o <;> simp [Op.add2]
      constructor
      · rintro ((rfl | h) | ⟨a, b, h⟩)
        · exact .inr ⟨_, _, .inl ⟨rfl, rfl, rfl⟩⟩
        · exact .inl h
        · exact .inr ⟨a, b, .inr h⟩
      · rintro (h | ⟨a, b, ⟨rfl, -, -⟩ | h⟩)
        · exact .inl (.inr h)
        · exact .inl (.inl rfl)
        · exact .inr ⟨a, b, h⟩
    · rw [a4, hc.sides]
      cases o <;> simp [Op.addS]
      constructor
      · rintro ((rfl | h) | ⟨a, b, h⟩)
        · exact .inr ⟨_, _, .inl ⟨rfl, rfl, rfl⟩⟩
        · exact .inl h
        · exact .inr ⟨a, b, .inr h⟩
      · rintro (h | ⟨a, b, ⟨rfl, -, -⟩ | h⟩)
        · exact .inl (.inr h)
        · exact .inl (.inl rfl)
        · exact .inr ⟨a, b, h⟩

theorem mem_res2 {val : N → V} {rem : List (Op N)} {y : Nat × V × V} : y ∈ rem.flatMap (Op.res2 val) ↔ ∃ i a b, Op.contr i a b ∈ rem ∧ y = (i, val a, val b) := by
  rw [List.mem_flatMap]
  constructor
  · rintro ⟨o, ho, h⟩
    cases o with
    | contr i a b => exact ⟨i, a, b, ho, by simpa [Op.res2] using h⟩
    | gen n => simp [Op.res2] at h
    | clear => simp [Op.res2] at h
    | side s a b => simp [Op.res2] at h
  · rintro ⟨i, a, b, ho, rfl⟩
    exact ⟨_, ho, by simp [Op.res2]⟩

theorem mem_resS {val : N → V} {rem : List (Op N)} {y : N × V × V} : y ∈ rem.flatMap (Op.resS val) ↔ ∃ i a b, Op.side i a b ∈ rem ∧ y = (i, val a, val b) := by
  rw [List.mem_flatMap]
  constructor
  · rintro ⟨o, ho, h⟩
    cases o with
    | side i a b => exact ⟨i, a, b, ho, by simpa [Op.resS] using h⟩
    | gen n => simp [Op.resS] at h
    | clear => simp [Op.resS] at h
    | contr s a b => simp [Op.resS] at h
  · rintro ⟨i, a, b, ho, rfl⟩
    exact ⟨_, ho, by simp [Op.resS]⟩

theorem nodup_res2 {val : N → V} : ∀ (rem : List (Op N)), Tags p rem → ((rem.flatMap (Op.res2 val)).map Prod.fst).Nodup := by
  intro rem
  induction rem with
  | nil => intro _; simp
  | cons o rem ih =>
    intro h
    obtain ⟨h1, h2⟩ := List.pairwise_cons.1 h
    rw [List.flatMap_cons, List.map_append]
    cases o with
    | contr i a b =>
      show (i :: _).Nodup
      refine List.nodup_cons.2 ⟨fun hm => ?_, ih h2⟩
      obtain ⟨y, hy, e⟩ := List.mem_map.1 hm
      obtain ⟨i', a', b', ho, rfl⟩ := mem_res2.1 hy
      subst e
      exact h1 _ ho _ rfl rfl
    | gen n => exact ih h2
    | clear => exact ih h2
    | side s a b => exact ih h2

theorem nodup_resS {val : N → V} : ∀ (rem : List (Op N)), Tags p rem → ((rem.flatMap (Op.resS val)).map Prod.fst).Nodup := by
  intro rem
  induction rem with
  | nil => intro _; simp
  | cons o rem ih =>
    intro h
    obtain ⟨h1, h2⟩ := List.pairwise_cons.1 h
    rw [List.flatMap_cons, List.map_append]
    cases o with
    | side i a b =>
      show (i :: _).Nodup
      refine List.nodup_cons.2 ⟨fun hm => ?_, ih h2⟩
      obtain ⟨y, hy, e⟩ := List.mem_map.1 hm
      obtain ⟨i', a', b', ho, rfl⟩ := mem_resS.1 hy
      subst e
      exact h1 _ ho _ rfl rfl
    | gen n => exact ih h2
    | clear => exact ih h2
    | contr s a b => exact ih h2

/-! ### The sequence for the plan -/

section
variable {pd : N → Finset N} (hd : Deps p pd)
include hd

/-- the sequence of the operations, with the original sources taken as computed or not -/
def ops (p : Plan N V) (pd : N → Finset N) (C : Finset N) : List (Op N) := opsFrom p (fun n => decide (pd n ≠ ∅)) p.qprops C ∅ ∅

theorem ops_tag {C : Finset N} {o : Op N} (ho : o ∈ ops p pd C) {x t : N} (hx : x ∈ o.operands p) (ht : o.tag p = some t) : t ∈ pd x := by
  have := mem_opsFrom p _ _ _ _ _ o ho
  cases o with
  | gen n =>
    simp only [decide_eq_true_eq] at this
    cases ht
    exact (hd.mem x t).2 (.inr ⟨hx, (hd.needed t).1 this.2⟩)
  | clear => cases ht
  | contr i a b =>
    cases ht
    refine (hd.mem x _).2 (.inl (.inl ⟨((a, b), i), List.mk_mem_zipIdx_iff_getElem?.2 this.2, by simpa [Op.operands] using hx, rfl⟩))
  | side s a b =>
    cases ht
    exact (hd.mem x _).2 (.inl (.inr ⟨(s, a, b), this.2, by simpa [Op.operands] using hx, rfl⟩))

omit hd in
theorem ready (hp : Valid p) {n : N} (hd : Deps p pd) (h : Needed p n) : n ∈ p.ori.toFinset ∨ (n ∈ p.qprops ∧ decide (pd n ≠ ∅) = true) := by
  rcases List.mem_append.1 (h.keys hp) with h' | h'
  · exact .inl (List.mem_toFinset.2 h')
  · exact .inr ⟨h', by simpa using (hd.needed n).2 h⟩

theorem ops_contr (hp : Valid p) {i : Nat} {a b : N} : Op.contr i a b ∈ ops p pd p.ori.toFinset ↔ p.contr[i]? = some (a, b) := by
  constructor
  · intro h
    exact (mem_opsFrom p _ _ _ _ _ _ h).2
  · intro h
    have hm : (a, b) ∈ p.contr := List.mem_of_getElem? h
    refine contr_mem_opsFrom p _ _ _ _ _ i a b h (by simp) ?_ (ready hp hd (.contr _ hm a (.inl rfl))) (ready hp hd (.contr _ hm b (.inr rfl)))
    rw [List.mem_toFinset, List.mem_toFinset]
    exact (hp.contrNames _ hm).2.2

theorem ops_side (hp : Valid p) {s a b : N} : Op.side s a b ∈ ops p pd p.ori.toFinset ↔ (s, a, b) ∈ p.sides := by
  constructor
  · intro h
    exact (mem_opsFrom p _ _ _ _ _ _ h).2
  · intro hm
    refine side_mem_opsFrom p hp.sidesNodup _ _ _ _ _ s a b hm (by simp) ?_ (ready hp hd (.side _ hm a (.inl rfl))) (ready hp hd (.side _ hm b (.inr rfl)))
    rw [List.mem_toFinset, List.mem_toFinset]
    exact (hp.sideNames _ hm).2.2

theorem ops_gen (hp : Valid p) {n : N} (h : Needed p n) (hn : n ∈ p.qprops) (C : Finset N) : Op.gen n ∈ ops p pd C :=
  gen_mem_opsFrom p _ _ _ _ _ n hn (by simpa using (hd.needed n).2 h)

theorem ops_dep_iff (hp : Valid p) (x t : N) : t ∈ pd x ↔ ∃ o ∈ ops p pd p.ori.toFinset, x ∈ o.operands p ∧ o.tag p = some t := by
  constructor
  · intro h
    rcases (hd.mem x t).1 h with (⟨y, hy, h1, h2⟩ | ⟨y, hy, h1, h2⟩) | ⟨h1, h2⟩
    · exact ⟨.contr y.2 y.1.1 y.1.2, (ops_contr hd hp).2 (List.mk_mem_zipIdx_iff_getElem?.1 hy), by simpa [Op.operands] using h1, by rw [h2]; rfl⟩
    · exact ⟨.side y.1 y.2.1 y.2.2, (ops_side hd hp).2 hy, by simpa [Op.operands] using h1, by rw [h2]; rfl⟩
    · have : t ∈ p.qprops := by
        rcases List.mem_append.1 (h2.keys hp) with h' | h'
        · rw [hp.oriSources t h'] at h1; simp at h1
        · exact h'
      exact ⟨.gen t, ops_gen hd hp h2 this _, h1, rfl⟩
  · rintro ⟨o, ho, hx, ht⟩
    exact ops_tag hd ho hx ht

theorem ops_hasGen (hp : Valid p) : ∃ o ∈ ops p pd p.ori.toFinset, ∃ n, o = Op.gen n := by
  have : ∃ n ∈ p.qprops, Needed p n := by
    rcases hp.work with h | h
    · obtain ⟨x, hx⟩ := List.exists_mem_of_ne_nil _ h
      obtain ⟨h1, h2, h3⟩ := hp.contrNames x hx
      rcases List.mem_append.1 h1 with h1 | h1
      · rcases List.mem_append.1 h2 with h2 | h2
        · exact absurd ⟨h1, h2⟩ h3
        · exact ⟨_, h2, .contr x hx _ (.inr rfl)⟩
      · exact ⟨_, h1, .contr x hx _ (.inl rfl)⟩
    · obtain ⟨x, hx⟩ := List.exists_mem_of_ne_nil _ h
      obtain ⟨h1, h2, h3⟩ := hp.sideNames x hx
      rcases List.mem_append.1 h1 with h1 | h1
      · rcases List.mem_append.1 h2 with h2 | h2
        · exact absurd ⟨h1, h2⟩ h3
        · exact ⟨_, h2, .side x hx _ (.inr rfl)⟩
      · exact ⟨_, h1, .side x hx _ (.inl rfl)⟩
  obtain ⟨n, hn, h⟩ := this
  exact ⟨_, ops_gen hd hp h hn _, n, rfl⟩

theorem ops_good (hp : Valid p) : Good p p.ori.toFinset (ops p pd p.ori.toFinset) := by
  refine good_opsFrom p _ (fun n h => (hd.needed n).1 (by simpa using h)) _ _ _ _ hp.nq (fun x hx h => hp.dis (List.mem_toFinset.1 h) hx) (fun x hx => hx) hp.pairwise (fun n hn => hp.self hn) (fun n hn hnn s hs => ?_)
  exact ready hp hd (.source n s ((hd.needed n).1 (by simpa using hnn)) hs)

theorem ops_res2 (hp : Valid p) (val : N → V) : ((ops p pd p.ori.toFinset).flatMap (Op.res2 val)).Perm (results2 p val) := by
  have ht : Tags p (ops p pd p.ori.toFinset) := tags_opsFrom p hp _ _ _ _ _ hp.nq fun _ h => h
  refine (List.perm_ext_iff_of_nodup (List.Nodup.of_map _ (nodup_res2 (val := val) _ ht)) (List.Nodup.of_map Prod.fst ?_)).2 fun y => ?_
  · unfold results2
    rw [List.map_map]
    have : (Prod.fst ∘ fun x : (N × N) × Nat => (x.2, val x.1.1, val x.1.2)) = Prod.snd := rfl
    rw [this, List.zipIdx_map_snd]
    exact List.nodup_range'
  · rw [mem_res2, results2, List.mem_map]
    constructor
    · rintro ⟨i, a, b, ho, rfl⟩
      exact ⟨((a, b), i), List.mk_mem_zipIdx_iff_getElem?.2 ((ops_contr hd hp).1 ho), rfl⟩
    · rintro ⟨y, hy, rfl⟩
      exact ⟨y.2, y.1.1, y.1.2, (ops_contr hd hp).2 (List.mk_mem_zipIdx_iff_getElem?.1 hy), rfl⟩

theorem ops_resS (hp : Valid p) (val : N → V) : ((ops p pd p.ori.toFinset).flatMap (Op.resS val)).Perm (resultsS p val) := by
  have ht : Tags p (ops p pd p.ori.toFinset) := tags_opsFrom p hp _ _ _ _ _ hp.nq fun _ h => h
  refine (List.perm_ext_iff_of_nodup (List.Nodup.of_map _ (nodup_resS (val := val) _ ht)) (List.Nodup.of_map Prod.fst ?_)).2 fun y => ?_
  · unfold resultsS
    rw [List.map_map]
    exact hp.sidesNodup
  · rw [mem_resS, resultsS, List.mem_map]
    constructor
    · rintro ⟨i, a, b, ho, rfl⟩
      exact ⟨(i, a, b), (ops_side hd hp).1 ho, rfl⟩
    · rintro ⟨y, hy, rfl⟩
      exact ⟨y.1, y.2.1, y.2.2, (ops_side hd hp).2 hy, rfl⟩

end

theorem ori_fold (st : St N V) : ∀ (l : List N) (st : St N V),
    ∃ stt, l.foldl (fun (st : St N V) s => { st with status := Function.update st.status s (some .IN_MEMORY), computedProps := insert s st.computedProps }) st =
      { st with status := stt, computedProps := st.computedProps ∪ l.toFinset } ∧ ∀ x, stt x = if x ∈ l then some .IN_MEMORY else st.status x := by
  intro l
  induction l with
  | nil => intro st; exact ⟨st.status, by simp, fun x => by simp⟩
  | cons a l ih =>
    intro st
    obtain ⟨stt, h1, h2⟩ := ih { st with status := Function.update st.status a (some .IN_MEMORY), computedProps := insert a st.computedProps }
    refine ⟨stt, ?_, fun x => ?_⟩
    · rw [List.foldl_cons, h1, List.toFinset_cons]
      simp only [Finset.insert_union, Finset.union_insert]
    · rw [h2]
      by_cases hx : x = a
      · subst hx; simp
      · simp only [List.mem_cons, hx, false_or, Function.update_of_ne hx]

variable (p)

/-- **C64**.  A hit, from a state with nothing allocated, ends without crash and without using storage not allocated, computing each contraction and each side of the handcuffs once, each with the content the
propagators must have; nothing is left in memory nor on disk; the dependencies are as before, ready for another hit; the number of propagators in memory never exceeds the limit, or the number of original sources. -/
theorem C64_hit (hp : Valid p) {fuel : Nat} {pd : N → Finset N} (hc : construct p fuel = some pd) (src : N → V) (st : St N V) (hi : Idle p pd st) :
    ∃ st', run p (startHit p src st) = .ok st' ∧ Idle p pd st' ∧ (∃ L, st'.out2 = st.out2 ++ L ∧ L.Perm (results2 p (content p src))) ∧
      (∃ L, st'.outS = st.outS ++ L ∧ L.Perm (resultsS p (content p src))) := by
  have hd := construct_deps p hc
  obtain ⟨hv1, hv2⟩ := content_spec hp src
  obtain ⟨s0, a1, a2, a3, a4, a5, a6, a7, a8, a9⟩ := startHit_ok hp src p.ori st (List.nodup_append.1 hp.names).1 (fun x hx => ⟨hx, hi.mem x⟩) (fun x hx => absurd (hi.mem x) hx)
  have a1' : startHit p src st = s0 := a1
  obtain ⟨c1, -, -, -, c5, c6⟩ := ctrl_eq a4
  have hneed : ∀ n ∈ p.qprops, pd n ≠ ∅ ↔ decide (pd n ≠ ∅) = true := fun n _ => by simp
  -- first run
  let d0 : St N V := { s0 with computedProps := ∅, computed2pts := ∅, computedSides := ∅, offloaded := ∅, status := fun _ => none }
  have htd : Tags p (ops p pd ∅) := tags_opsFrom p hp _ _ _ _ _ hp.nq fun _ h => h
  obtain ⟨d1, b1, b2, b3, b4⟩ := dry_all hp (ops p pd ∅) d0 htd (fun o ho x hx t ht => by
    show t ∈ s0.propDep x
    rw [c1, hi.dep]
    exact ops_tag hd ho hx ht) (fun n hn => (mem_opsFrom p _ _ _ _ _ _ hn).1) (fun x => by show s0.lib x = none; rw [a6]; exact hi.lib x)
  have hrun1 : internalRun p true s0 = .ok { d1 with propDep := pd } := by
    unfold internalRun
    refine (bind_of_ok (a := d1) ?_ _).trans ?_
    · rw [if_pos rfl]
      refine (loop_ops p hp.sidesNodup true (fun n => decide (pd n ≠ ∅)) p.qprops ∅ ∅ ∅ hp.nq (by simp) hp.pairwise (fun n hn => hp.self hn) d0 rfl rfl rfl (fun n hn => ?_)).trans b1
      show s0.propDep n ≠ ∅ ↔ _
      rw [c1, hi.dep]
      exact hneed n hn
    · show Except.ok _ = _
      simp only [c1, hi.dep]
  simp only [memp, Prod.mk.injEq] at b2
  obtain ⟨e1, e2, e3, e4, e5, e6⟩ := b2
  -- second run
  obtain ⟨stt, f1, f2⟩ := ori_fold { { d1 with propDep := pd } with computedProps := ∅, computed2pts := ∅, computedSides := ∅, offloaded := ∅, status := fun _ => none } p.ori
    { { d1 with propDep := pd } with computedProps := ∅, computed2pts := ∅, computedSides := ∅, offloaded := ∅, status := fun _ => none }
  let r0 : St N V := { d1 with propDep := pd, computedProps := p.ori.toFinset, computed2pts := ∅, computedSides := ∅, offloaded := ∅, status := stt }
  have hr0 : p.ori.foldl (fun (st : St N V) s => { st with status := Function.update st.status s (some .IN_MEMORY), computedProps := insert s st.computedProps })
      { { d1 with propDep := pd } with computedProps := ∅, computed2pts := ∅, computedSides := ∅, offloaded := ∅, status := fun _ => none } = r0 := by
    rw [f1]
    simp only [Finset.empty_union, r0]
  have memr : ∀ x, r0.mem x ≠ none ↔ x ∈ p.ori := fun x => by
    show d1.mem x ≠ none ↔ _
    rw [e1]
    show s0.mem x ≠ none ↔ _
    constructor
    · intro h
      by_contra hx
      rw [a3 x hx] at h
      exact h (hi.mem x)
    · intro hx
      obtain ⟨ad, e⟩ := a2 x hx
      rw [e]; simp
  have str : ∀ x, r0.status x = if x ∈ p.ori then some .IN_MEMORY else none := f2
  have stn : ∀ x, r0.status x ≠ none ↔ x ∈ p.ori := fun x => by rw [str]; split <;> simp [*]
  have hinv : Inv p (content p src) (max p.nMax p.ori.length) False (ops p pd p.ori.toFinset) r0 := by
    refine ⟨⟨fun x => ?_, fun x ad v e => ?_, fun x hx => ?_, fun x hx => ?_, fun x hx => ?_, fun x => ?_, fun _ => rfl, fun hn => ?_, fun hn => ?_⟩, ops_good hd hp, tags_opsFrom p hp _ _ _ _ _ hp.nq fun _ h => h,
      ops_dep_iff hd hp, fun x hx _ => (stn x).2 (List.mem_toFinset.1 hx), fun x hx => ?_, fun h x hx => ?_, fun hn => ?_, libOk_empty _ _ b3⟩
    · rw [memr, str]; split <;> simp [*]
    · have hx : x ∈ p.ori := (memr x).1 (by rw [e]; simp)
      obtain ⟨ad', e'⟩ := a2 x hx
      have : d1.mem x = some (ad, v) := e
      rw [e1] at this
      have : s0.mem x = some (ad, v) := this
      rw [e'] at this
      rw [hv1 x hx]
      exact (Prod.mk.inj (Option.some.inj this)).2.symm
    · have hx' := (stn x).1 hx
      refine ⟨List.mem_append_left _ hx', ?_⟩
      rw [str, if_pos hx']; simp
    · rw [str] at hx
      split at hx <;> cases hx
    · exact absurd hx (Finset.notMem_empty x)
    · show d1.disk x = if x ∈ (∅ : Finset N) then _ else none
      rw [if_neg (Finset.notMem_empty x), e2]
      show s0.disk x = none
      rw [a5]; exact hi.disk x
    · rw [nAlloc_card p hp.names]
      refine le_trans (Finset.card_le_card (t := p.ori.toFinset) fun x hx => ?_) (le_trans (List.toFinset_card_le _) (le_max_right _ _))
      rw [Finset.mem_filter, Option.isSome_iff_ne_none] at hx
      exact List.mem_toFinset.2 ((memr x).1 hx.2)
    · show d1.peak ≤ _
      rw [e5]
      exact a9 _ (le_max_right _ _) (hi.peak hn)
    · by_contra hne
      exact hx (List.mem_toFinset.2 ((stn x).1 hne))
    · have hn := h.resolve_left id
      exact (hd.needed x).2 ((hp.limit hn).2.2.1 x ((stn x).1 hx))
    · show d1.orderedDep.drop d1.nPassedDep = _
      rw [b4, e6]
      show (s0.orderedDep ++ _).drop s0.nPassedDep = _
      rw [c5, c6, hi.passed hn, List.drop_left]
      rw [ops, ops, opsFrom_congr p _ (hp.limit hn).2.2.2.1 (hp.limit hn).2.2.2.2 p.qprops ∅ p.ori.toFinset ∅ ∅ (fun x hx => by simp [hx])]
  obtain ⟨r1, g1, g2, g3, g4⟩ := exec_all hp (le_max_left _ _) hv2 _ _ _ hinv
  obtain ⟨k1, k2, k3, k4⟩ := ops_ctrl _ _ _ g1
  have hrun2 : internalRun p false { d1 with propDep := pd } = .ok { r1 with propDep := pd } := by
    unfold internalRun
    refine (bind_of_ok (a := r1) ?_ _).trans rfl
    rw [if_neg (by simp)]
    refine Eq.trans (congrArg (fun s => List.foldlM (body p false) s p.qprops) hr0) ?_
    exact (loop_ops p hp.sidesNodup false (fun n => decide (pd n ≠ ∅)) p.qprops p.ori.toFinset ∅ ∅ hp.nq (fun x hx h => hp.dis (List.mem_toFinset.1 h) hx) hp.pairwise (fun n hn => hp.self hn) r0 rfl rfl rfl
      (fun n hn => hneed n hn)).trans g1
  have hstat : ∀ x, r1.status x = none := fun x => by
    by_contra hne
    have := g2.tight (.inl (.inr (ops_hasGen hd hp))) x hne
    obtain ⟨t, ht⟩ := Finset.nonempty_iff_ne_empty.2 this
    obtain ⟨o, ho, -⟩ := (g2.dep x t).1 ht
    simp at ho
  have hoff : ∀ x, x ∉ r1.offloaded := fun x hx => g2.m.alive x hx (hstat x)
  refine ⟨{ r1 with propDep := pd }, ?_, ⟨rfl, fun x => ?_, fun x => ?_, fun x => g2.lib x, fun hn => ?_, fun hn => g2.m.peak hn⟩, ⟨_, ?_, ops_res2 hd hp _⟩, ⟨_, ?_, ops_resS hd hp _⟩⟩
  · unfold run
    rw [a1']
    refine (bind_of_ok hrun1 _).trans ?_
    refine (bind_of_ok hrun2 _).trans ?_
    rw [if_neg]
    · rfl
    · rintro (⟨i, hi', h⟩ | ⟨x, hx, h⟩)
      · exact h ((k3 i).2 (.inr ⟨_, _, (ops_contr hd hp).2 (List.getElem?_eq_getElem hi')⟩))
      · exact h ((k4 x.1).2 (.inr ⟨_, _, (ops_side hd hp).2 hx⟩))
  · by_contra hne
    have h' : r1.mem x ≠ none := hne
    rw [g2.m.mem, hstat] at h'
    cases h'
  · show r1.disk x = none
    rw [g2.m.disk, if_neg (hoff x)]
  · show r1.nPassedDep = r1.orderedDep.length
    rw [k2, k1]
    show d1.nPassedDep + _ = d1.orderedDep.length
    rw [b4, e6, List.length_append]
    show s0.nPassedDep + _ = s0.orderedDep.length + _
    rw [c6, c5, hi.passed hn]
    rw [ops, ops, opsFrom_congr p _ (hp.limit hn).2.2.2.1 (hp.limit hn).2.2.2.2 p.qprops ∅ p.ori.toFinset ∅ ∅ (fun x hx => by simp [hx])]
  · rw [g3]
    show d1.out2 ++ _ = _
    rw [e3]
    show s0.out2 ++ _ = _
    rw [a7]
  · rw [g4]
    show d1.outS ++ _ = _
    rw [e4]
    show s0.outS ++ _ = _
    rw [a8]

end

end Nissa.Hit
