/- C12, C13, C14: the memory manager. -/
import Verif.Memory.ManagerLemmas
set_option linter.all false

namespace Nissa.Mem

theorem inv_init : Inv init := ⟨List.Perm.refl _, ⟨List.Pairwise.nil, by simp [init]⟩, by simp [init], rfl, rfl, by decide, by decide⟩

theorem inv_congr {st st' : State} (hi : Inv st) (h1 : st'.used = st.used) (h2 : st'.cached = st.cached) (h3 : st'.usedSize = st.usedSize)
    (h4 : st'.cachedSize = st.cachedSize) (h5 : st'.sys = st.sys) : Inv st' := by
  constructor
  · rw [h1, h2, h5]; exact hi.perm
  · rw [h5]; exact hi.sys
  · rw [h2]; exact hi.ne
  · rw [h3, h1]; exact hi.usedVal
  · rw [h4, h2]; exact hi.cachedVal
  · rw [h3]; exact hi.usedExtr
  · rw [h4]; exact hi.cachedExtr

/-- the pointer the system could return in an operation -/
def opAligned : Op → Prop
  | .provide _ _ a _ => 16 ∣ a
  | _ => True

theorem step_ok {st st' : State} {o : Op} {p : Nat} (hi : Inv st) (hl : LegalOp st o) (h : step st o = some (st', p)) :
    Inv st' ∧ (Up st.usedSize st'.usedSize ∨ Dn st.usedSize st'.usedSize) ∧ (Up st.cachedSize st'.cachedSize ∨ Dn st.cachedSize st'.cachedSize) ∧
      (opAligned o → (∀ b ∈ st.sys, b.1 % 16 = 0) → ∀ b ∈ st'.sys, b.1 % 16 = 0) ∧
      (∀ l, st.used.Perm l → st'.used.Perm (liveStep l o p)) := by
  cases o with
  | provide sz nel a q =>
    simp only [step, Option.some.injEq] at h
    by_cases hn : nel = 0
    · unfold provide at h
      rw [if_pos hn] at h
      cases h
      exact ⟨hi, Or.inr dn_refl, Or.inr dn_refl, fun _ hb => hb, fun l hl => by simpa [liveStep, hn] using hl⟩
    · obtain ⟨st1, p1, h1, h2, h3, h4, h5, h6, h7, h8, h9, h10⟩ := provide_spec hi hl hn
      rw [h1] at h
      cases h
      refine ⟨h2, Or.inl h7, Or.inr h8, fun ha hb b hbm => ?_, fun l hl => ?_⟩
      · rcases h10 b hbm with hb' | hb'
        · exact hb b hb'
        · obtain ⟨-, -, -, hq, -⟩ := hl
          rw [hb']
          exact Nat.mod_eq_zero_of_dvd (Nat.dvd_trans ha (Nat.dvd_of_mod_eq_zero hq))
      · simp only [liveStep, if_neg hn, h3]
        exact hl.cons _
  | release q =>
    simp only [step] at h
    obtain ⟨s, hs, he⟩ := Option.map_eq_some_iff.1 h
    cases he
    by_cases hq : q = 0
    · unfold release at hs
      rw [if_pos hq] at hs
      cases hs
      refine ⟨hi, Or.inr dn_refl, Or.inr dn_refl, fun _ hb => hb, fun l hl => ?_⟩
      simp only [liveStep]
      rw [List.filter_eq_self.2]
      · exact hl
      · intro b hb
        have : b ∈ st.sys := hi.perm.mem_iff.1 (List.mem_append_left _ (hl.mem_iff.2 hb))
        have := (hi.sys.pos b this).1
        simp [hq, this]
    · by_cases hm : ∃ e ∈ st.used, e.1 = q
      · obtain ⟨st1, sz, r1, r2, r3, r4, r5, r6, r7, r8, r9⟩ := release_spec hi hq hm
        rw [r1] at hs
        cases hs
        refine ⟨r2, Or.inr r4, Or.inl r5, fun _ hb b hbm => hb b (r7 b hbm), fun l hl => ?_⟩
        simp only [liveStep]
        have hp := (hl.symm.trans r3).filter (fun b => b.1 != q)
        refine List.Perm.symm (hp.trans ?_)
        rw [List.filter_cons_of_neg (by simp), List.filter_eq_self.2]
        intro b hb
        have hnd := (hi.sys.perm hi.perm.symm).nodup
        rw [List.map_append] at hnd
        have hnd' := ((r3.map Prod.fst).nodup_iff).1 (List.nodup_append.1 hnd).1
        rw [List.map_cons, List.nodup_cons] at hnd'
        simp only [bne_iff_ne, ne_eq]
        exact fun e => hnd'.1 (List.mem_map.2 ⟨b, hb, e⟩)
      · rw [release_crash hq hm] at hs; cases hs
  | releaseAll =>
    simp only [step] at h
    obtain ⟨s, hs, he⟩ := Option.map_eq_some_iff.1 h
    cases he
    obtain ⟨st1, q1, q2, q3, q4, q5, q6, q7⟩ := releaseList_spec _ hi (List.mergeSort_perm (st.used.map Prod.fst) (fun a b => decide (a ≤ b)))
    have : st1 = st' := by
      unfold releaseAll at hs
      have := q1.symm.trans hs
      exact Option.some.inj this
    subst this
    exact ⟨q2, Or.inr q4, Or.inl q5, fun _ hb b hbm => hb b (q7 b hbm), fun l _ => by rw [q3]; exact List.Perm.refl _⟩
  | clearCache =>
    cases h
    obtain ⟨a, b, c, d, e, f⟩ := clearList_spec st.cached hi
    exact ⟨a, Or.inr (show Dn _ (clearCache st).usedSize by unfold clearCache; rw [c]; exact dn_refl), Or.inr d, fun _ hb x hx => hb x (f x hx), fun l hl => (show (clearCache st).used.Perm l by unfold clearCache; rw [b]; exact hl)⟩
  | enableCache =>
    cases h
    exact ⟨inv_congr hi rfl rfl rfl rfl rfl, Or.inr dn_refl, Or.inr dn_refl, fun _ hb => hb, fun l hl => hl⟩
  | disableCache =>
    cases h
    obtain ⟨a, b, c, d, e, f⟩ := clearList_spec st.cached (inv_congr (st' := { st with useCache := false }) hi rfl rfl rfl rfl rfl)
    refine ⟨a, Or.inr ?_, Or.inr d, fun _ hb x hx => hb x (f x hx), fun l hl => ?_⟩
    · unfold clearCache; simp only; rw [c]; exact dn_refl
    · unfold clearCache; simp only; rw [b]; exact hl

theorem live_snoc (tr : List (Op × Nat)) (o : Op) (p : Nat) : live (tr ++ [(o, p)]) = liveStep (live tr) o p := by
  unfold live; rw [List.foldl_append]; rfl

instance (a b : Nat × Nat) : Decidable (Disjoint a b) := by unfold Disjoint; infer_instance
instance (st : State) (o : Op) : Decidable (LegalOp st o) := by cases o <;> (unfold LegalOp; infer_instance)

theorem run_inv {tr : List (Op × Nat)} {sts : List State} {st : State} (h : LegalRun tr sts st) : Inv st ∧ st.used.Perm (live tr) := by
  induction h with
  | nil => exact ⟨inv_init, List.Perm.refl _⟩
  | snoc _ hl hs ih =>
    obtain ⟨a, _, _, _, b⟩ := step_ok ih.1 hl hs
    exact ⟨a, by rw [live_snoc]; exact b _ ih.2⟩

/-! ### C12 -/

/-- C12: at any point of any history, the blocks held by the user (those provided and not released since) do not overlap, and have non
null address -/
theorem C12_live_disjoint (tr : List (Op × Nat)) (sts : List State) (st : State) (h : LegalRun tr sts st) :
    (live tr).Pairwise Disjoint ∧ ∀ b ∈ live tr, b.1 ≠ 0 := by
  obtain ⟨hi, hp⟩ := run_inv h
  have hs := hi.sys.perm hi.perm.symm
  refine ⟨?_, fun b hb => (hs.pos b (List.mem_append_left _ (hp.mem_iff.2 hb))).1⟩
  exact (hp.pairwise_iff (fun h => disj_symm h)).1 (List.pairwise_append.1 hs.disj).1

/-- C12: a request of nel elements of size sz returns a non null pointer with the requested alignment, and the block of sz*nel bytes
starting there does not overlap any block held by the user, nor any cached one -/
theorem C12_provide (tr : List (Op × Nat)) (sts : List State) (st : State) (h : LegalRun tr sts st) (sz nel a q : Nat)
    (hl : LegalOp st (.provide sz nel a q)) (hn : nel ≠ 0) :
    ∃ st' p, step st (.provide sz nel a q) = some (st', p) ∧ p ≠ 0 ∧ p % a = 0 ∧ (∀ b ∈ live tr, Disjoint (p, sz * nel) b) ∧
      (∀ b ∈ cacheBlocks st'.cached, Disjoint (p, sz * nel) b) := by
  obtain ⟨hi, hp⟩ := run_inv h
  obtain ⟨st', p, h1, h2, h3, h4, h5, -⟩ := provide_spec hi hl hn
  refine ⟨st', p, by simp [step, h1], h5, h4, ?_, ?_⟩
  · intro b hb
    have hs := (h2.sys.perm h2.perm.symm).disj
    rw [h3] at hs
    exact (List.pairwise_cons.1 hs).1 b (List.mem_append_left _ (hp.mem_iff.2 hb))
  · intro b hb
    have hs := (h2.sys.perm h2.perm.symm).disj
    rw [h3] at hs
    exact (List.pairwise_cons.1 hs).1 b (List.mem_append_right _ hb)

/-- C12: the release of what the user holds always succeeds; of anything else (double release, foreign pointer) it crashes -/
theorem C12_release (tr : List (Op × Nat)) (sts : List State) (st : State) (h : LegalRun tr sts st) (p : Nat) (hp0 : p ≠ 0) :
    (∃ b ∈ live tr, b.1 = p) ↔ (step st (.release p)).isSome := by
  obtain ⟨hi, hp⟩ := run_inv h
  constructor
  · rintro ⟨b, hb, e⟩
    obtain ⟨st', s, h1, -⟩ := release_spec hi hp0 ⟨b, hp.mem_iff.2 hb, e⟩
    simp [step, h1]
  · intro hs
    by_contra hc
    have := release_crash (st := st) hp0 (fun ⟨e, he, hep⟩ => hc ⟨e, hp.mem_iff.1 he, hep⟩)
    simp [step, this] at hs

/-! ### C13 -/

/-- C13: the reported used size is the total size of what the user holds; used and cached sizes make up all that was obtained from the
system and not given back to it -/
theorem C13_sizes (tr : List (Op × Nat)) (sts : List State) (st : State) (h : LegalRun tr sts st) :
    st.usedSize.val = total (live tr) ∧ st.usedSize.val + st.cachedSize.val = total st.sys := by
  obtain ⟨hi, hp⟩ := run_inv h
  refine ⟨by rw [hi.usedVal, total_perm hp], ?_⟩
  rw [hi.usedVal, hi.cachedVal, ← total_append, total_perm hi.perm]

/-- C13: the reported maxima are the maxima over the history -/
theorem C13_max (tr : List (Op × Nat)) (sts : List State) (st : State) (h : LegalRun tr sts st) :
    ((∃ s ∈ sts, s.usedSize.val = st.usedSize.extr) ∧ ∀ s ∈ sts, s.usedSize.val ≤ st.usedSize.extr) ∧
    ((∃ s ∈ sts, s.cachedSize.val = st.cachedSize.extr) ∧ ∀ s ∈ sts, s.cachedSize.val ≤ st.cachedSize.extr) := by
  induction h with
  | nil => simp [init]
  | @snoc tr sts st o st' p hr hl hs ih =>
    obtain ⟨hi, _⟩ := run_inv hr
    obtain ⟨a, b, c, _⟩ := step_ok hi hl hs
    have hb : st'.usedSize.extr = max st.usedSize.extr st'.usedSize.val := b.elim up_max (fun d => dn_max d hi.usedExtr)
    have hc : st'.cachedSize.extr = max st.cachedSize.extr st'.cachedSize.val := c.elim up_max (fun d => dn_max d hi.cachedExtr)
    obtain ⟨⟨⟨s1, m1, e1⟩, u1⟩, ⟨s2, m2, e2⟩, u2⟩ := ih
    refine ⟨⟨?_, fun s hs => ?_⟩, ⟨?_, fun s hs => ?_⟩⟩
    · rcases Int.le_total st.usedSize.extr st'.usedSize.val with hle | hle
      · exact ⟨st', by simp, by omega⟩
      · exact ⟨s1, by simp [m1], by omega⟩
    · rcases List.mem_append.1 hs with hs | hs
      · have := u1 s hs; omega
      · rw [List.mem_singleton.1 hs]; omega
    · rcases Int.le_total st.cachedSize.extr st'.cachedSize.val with hle | hle
      · exact ⟨st', by simp, by omega⟩
      · exact ⟨s2, by simp [m2], by omega⟩
    · rcases List.mem_append.1 hs with hs | hs
      · have := u2 s hs; omega
      · rw [List.mem_singleton.1 hs]; omega

/-! ### C14 -/

theorem run_aligned {tr : List (Op × Nat)} {sts : List State} {st : State} (h : LegalRun tr sts st) (ha : ∀ e ∈ tr, opAligned e.1) :
    ∀ b ∈ st.sys, b.1 % 16 = 0 := by
  induction h with
  | nil => simp [init]
  | @snoc tr sts st o st' p hr hl hs ih =>
    obtain ⟨hi, _⟩ := run_inv hr
    obtain ⟨_, _, _, a, _⟩ := step_ok hi hl hs
    exact a (ha (o, p) (by simp)) (ih (fun e he => ha e (by simp [he])))

/-- C14: if all memory was requested with alignments multiple of 16 (as the default one), clearing the cache leaves nothing in it, and
what remains allocated is exactly what the user holds. -/
theorem C14_clear (tr : List (Op × Nat)) (sts : List State) (st : State) (h : LegalRun tr sts st)
    (ha : ∀ e ∈ tr, ∀ sz nel a q, e.1 = .provide sz nel a q → 16 ∣ a) :
    (clearCache st).cached = [] ∧ (clearCache st).sys.Perm (live tr) ∧ (clearCache st).cachedSize.val = 0 := by
  obtain ⟨hi, hp⟩ := run_inv h
  have hal := run_aligned h (fun e he => by
    cases ho : e.1 with
    | provide sz nel a q => exact ha e he sz nel a q ho
    | _ => trivial)
  have hc : (clearCache st).cached = [] := by
    unfold clearCache
    exact clearList_empty st.cached rfl (fun b hb => hal b (hi.perm.mem_iff.1 (List.mem_append_right _ hb))) hi.ne
  obtain ⟨a, b, -⟩ := clearList_spec st.cached hi
  change Inv (clearCache st) at a
  change (clearCache st).used = st.used at b
  refine ⟨hc, ?_, ?_⟩
  · have := a.perm.symm
    rw [hc, b] at this
    simpa [cacheBlocks] using this.trans (by simpa [cacheBlocks] using hp)
  · rw [a.cachedVal, hc]; rfl

/-- C14: the shutdown sequence of the destructor (release everything, clear the cache) never crashes and gives all memory back -/
theorem C14_destroy (tr : List (Op × Nat)) (sts : List State) (st : State) (h : LegalRun tr sts st)
    (ha : ∀ e ∈ tr, ∀ sz nel a q, e.1 = .provide sz nel a q → 16 ∣ a) :
    ∃ st1, releaseAll st = some st1 ∧ (clearCache st1).sys = [] ∧ (clearCache st1).cached = [] := by
  obtain ⟨hi, hp⟩ := run_inv h
  obtain ⟨st1, q1, q2, q3, q4, q5, q6, q7⟩ := releaseList_spec _ hi (List.mergeSort_perm (st.used.map Prod.fst) (fun a b => decide (a ≤ b)))
  have hs : step st .releaseAll = some (st1, 0) := by
    simp only [step, releaseAll]; rw [q1]; rfl
  have hr : LegalRun (tr ++ [(.releaseAll, 0)]) (sts ++ [st1]) st1 := LegalRun.snoc h trivial hs
  obtain ⟨a, b, -⟩ := C14_clear _ _ _ hr (fun e he sz nel al q heq => by
    rcases List.mem_append.1 he with he | he
    · exact ha e he sz nel al q heq
    · rw [List.mem_singleton.1 he] at heq; cases heq)
  refine ⟨st1, q1, ?_, a⟩
  have : live (tr ++ [(Op.releaseAll, 0)]) = [] := by rw [live_snoc]; rfl
  rw [this] at b
  exact b.eq_nil

/-- C14 fails for memory requested with a smaller alignment, e.g. 8: if the system returns an address not multiple of 16, that block is
not returned by clearing the cache, whose reported size stays different from zero. -/
theorem C14_small_alignment_violated : ∃ tr sts st, LegalRun tr sts st ∧ live tr = [] ∧
    (clearCache st).cached ≠ [] ∧ (clearCache st).sys ≠ [] ∧ (clearCache st).cachedSize.val = 8 :=
  ⟨_, _, _, LegalRun.snoc (LegalRun.snoc LegalRun.nil (o := .provide 8 1 8 24) (by simp [LegalOp, init]) rfl) (o := .release 24) trivial rfl,
    by decide, by decide, by decide, by decide⟩

/-- A non trivial legal history: two requests, a release, a third request served from the cache, one of zero elements -/
example : ∃ sts st, LegalRun [(.provide 8 4 16 1024, 1024), (.provide 8 2 16 2048, 2048), (.release 1024, 0), (.provide 16 2 16 4096, 1024), (.provide 4 0 16 64, 0)] sts st ∧
    st.nCachedReused = 1 :=
  ⟨_, _, LegalRun.snoc (LegalRun.snoc (LegalRun.snoc (LegalRun.snoc (LegalRun.snoc LegalRun.nil (o := .provide 8 4 16 1024) (by decide) rfl)
    (o := .provide 8 2 16 2048) (by decide) rfl) (o := .release 1024) (by decide) rfl) (o := .provide 16 2 16 4096) (by decide) rfl) (o := .provide 4 0 16 64) (by decide) rfl, rfl⟩

end Nissa.Mem
