/- Lemmas on the model of the memory manager. -/
import Verif.Memory.Manager
import Mathlib.Data.List.Nodup
set_option linter.all false

namespace Nissa.Mem

def Up (v v' : VMax) : Prop := v.val ≤ v'.val ∧ v'.extr = max v.extr v'.val
def Dn (v v' : VMax) : Prop := v'.val ≤ v.val ∧ v'.extr = v.extr

theorem up_refl {v : VMax} (h : v.val ≤ v.extr) : Up v v := ⟨Int.le_refl _, by omega⟩
theorem dn_refl {v : VMax} : Dn v v := ⟨Int.le_refl _, rfl⟩
theorem up_trans {a b c : VMax} (h : Up a b) (h' : Up b c) : Up a c := by
  obtain ⟨h1, h2⟩ := h; obtain ⟨h3, h4⟩ := h'; exact ⟨by omega, by omega⟩
theorem dn_trans {a b c : VMax} (h : Dn a b) (h' : Dn b c) : Dn a c := by
  obtain ⟨h1, h2⟩ := h; obtain ⟨h3, h4⟩ := h'; exact ⟨by omega, by omega⟩
theorem add_up {v : VMax} {d : Int} (hd : 0 ≤ d) : Up v (v.add d) := by
  unfold VMax.add Up; constructor
  · show v.val ≤ v.val + d; omega
  · simp only; split <;> omega
theorem add_dn {v : VMax} {d : Int} (hd : d ≤ 0) (h : v.val ≤ v.extr) : Dn v (v.add d) := by
  unfold VMax.add Dn; constructor
  · show v.val + d ≤ v.val; omega
  · simp only; split <;> omega
theorem add_val (v : VMax) (d : Int) : (v.add d).val = v.val + d := rfl
theorem up_le {v v' : VMax} (h : Up v v') : v'.val ≤ v'.extr := by obtain ⟨h1, h2⟩ := h; omega
theorem dn_le {v v' : VMax} (h : Dn v v') (hv : v.val ≤ v.extr) : v'.val ≤ v'.extr := by obtain ⟨h1, h2⟩ := h; omega
theorem up_max {v v' : VMax} (h : Up v v') : v'.extr = max v.extr v'.val := h.2
theorem dn_max {v v' : VMax} (h : Dn v v') (hv : v.val ≤ v.extr) : v'.extr = max v.extr v'.val := by obtain ⟨h1, h2⟩ := h; omega

theorem total_cons (b : Nat × Nat) (l : List (Nat × Nat)) : total (b :: l) = b.2 + total l := by simp [total]
theorem total_append (l l' : List (Nat × Nat)) : total (l ++ l') = total l + total l' := by simp [total]
theorem total_perm {l l' : List (Nat × Nat)} (h : l.Perm l') : total l = total l' := (h.map _).sum_eq

/-- the blocks of the system are sensible -/
structure SysOk (sys : List (Nat × Nat)) : Prop where
  disj : sys.Pairwise Disjoint
  pos : ∀ b ∈ sys, b.1 ≠ 0 ∧ 0 < b.2

theorem SysOk.nodup {sys : List (Nat × Nat)} (h : SysOk sys) : (sys.map Prod.fst).Nodup := by
  rw [List.Nodup, List.pairwise_map]
  refine List.Pairwise.imp_of_mem ?_ h.disj
  intro a b ha hb hd he
  have := h.pos a ha; have := h.pos b hb
  unfold Disjoint at hd; omega

theorem disj_symm {a b : Nat × Nat} (h : Disjoint a b) : Disjoint b a := Or.symm h

theorem SysOk.perm {l l' : List (Nat × Nat)} (h : SysOk l) (p : l.Perm l') : SysOk l' :=
  ⟨(p.pairwise_iff (fun h => disj_symm h)).1 h.disj, fun b hb => h.pos b (p.mem_iff.2 hb)⟩

theorem SysOk.tail {b : Nat × Nat} {l : List (Nat × Nat)} (h : SysOk (b :: l)) : SysOk l :=
  ⟨(List.pairwise_cons.1 h.disj).2, fun c hc => h.pos c (List.mem_cons_of_mem _ hc)⟩

structure Inv (st : State) : Prop where
  perm : (st.used ++ cacheBlocks st.cached).Perm st.sys
  sys : SysOk st.sys
  ne : ∀ e ∈ st.cached, e.2 ≠ []
  usedVal : st.usedSize.val = total st.used
  cachedVal : st.cachedSize.val = total (cacheBlocks st.cached)
  usedExtr : st.usedSize.val ≤ st.usedSize.extr
  cachedExtr : st.cachedSize.val ≤ st.cachedSize.extr

theorem eraseP_perm {l r : List (Nat × Nat)} {p s : Nat} (hn : (l.map Prod.fst).Nodup) (h : l.Perm ((p, s) :: r)) :
    (l.eraseP (fun e => e.1 == p)).Perm r := by
  have hm : (p, s) ∈ l := h.mem_iff.2 (by simp)
  obtain ⟨a, l1, l2, h1, h2, h3, h4⟩ := List.exists_of_eraseP hm (p := fun e : Nat × Nat => e.1 == p) (by simp)
  rw [h4]
  have ha : a = (p, s) := by
    have h2' : a.1 = p := by simpa using h2
    have : a ∈ l := by rw [h3]; simp
    exact List.inj_on_of_nodup_map hn this hm h2'
  rw [h3, ha] at h
  exact (List.perm_cons (p, s)).1 (List.perm_middle.symm.trans h)

theorem revPop_spec {a : Nat} {l : List Nat} {p : Nat} {r : List Nat} (h : revPop a l = some (p, r)) : l.Perm (p :: r) ∧ p % a = 0 := by
  induction l generalizing p r with
  | nil => simp [revPop] at h
  | cons x xs ih =>
    simp only [revPop] at h
    split at h
    · cases h; exact ⟨List.Perm.refl _, ‹_›⟩
    · cases hr : revPop a xs with
      | none => rw [hr] at h; simp at h
      | some q =>
        rw [hr] at h
        simp at h
        obtain ⟨rfl, rfl⟩ := h
        obtain ⟨i1, i2⟩ := ih hr
        exact ⟨(i1.cons x).trans (List.Perm.swap _ _ _), i2⟩

theorem cacheBlocks_cons (e : Nat × List Nat) (c : List (Nat × List Nat)) :
    cacheBlocks (e :: c) = e.2.map (fun p => (p, e.1)) ++ cacheBlocks c := by simp [cacheBlocks]

theorem cachePop_spec {c c' : List (Nat × List Nat)} {s a p : Nat} (h : cachePop c s a = some (p, c')) (hne : ∀ e ∈ c, e.2 ≠ []) :
    (cacheBlocks c).Perm ((p, s) :: cacheBlocks c') ∧ p % a = 0 ∧ ∀ e ∈ c', e.2 ≠ [] := by
  induction c generalizing c' with
  | nil => simp [cachePop] at h
  | cons e c ih =>
    obtain ⟨s', l⟩ := e
    simp only [cachePop] at h
    split at h
    · rename_i hs
      subst hs
      split at h
      · cases h
      · rename_i hr
        rename_i p' rest
        obtain ⟨i1, i2⟩ := revPop_spec hr
        have hp : l.Perm (p' :: rest.reverse) :=
          (List.reverse_perm l).symm.trans (i1.trans ((List.reverse_perm rest).symm.cons _))
        cases h
        refine ⟨?_, i2, ?_⟩
        · rw [cacheBlocks_cons]
          have := (hp.map (fun p => (p, s'))).append_right (cacheBlocks c)
          refine this.trans ?_
          split
          · rename_i he; rw [he]; simp
          · rw [cacheBlocks_cons]; simp
        · split
          · intro e he; exact hne e (by simp [he])
          · intro e he
            rcases List.mem_cons.1 he with rfl | he
            · assumption
            · exact hne e (by simp [he])
    · cases hr : cachePop c s a with
      | none => rw [hr] at h; simp at h
      | some q =>
        rw [hr] at h
        simp at h
        obtain ⟨rfl, rfl⟩ := h
        obtain ⟨i1, i2, i3⟩ := ih hr (fun e he => hne e (by simp [he]))
        refine ⟨?_, i2, ?_⟩
        · rw [cacheBlocks_cons, cacheBlocks_cons]
          exact (i1.append_left _).trans List.perm_middle
        · intro e he
          rcases List.mem_cons.1 he with rfl | he
          · exact hne _ (by simp)
          · exact i3 e he

theorem cachePush_spec (c : List (Nat × List Nat)) (s p : Nat) (hne : ∀ e ∈ c, e.2 ≠ []) :
    (cacheBlocks (cachePush c s p)).Perm ((p, s) :: cacheBlocks c) ∧ ∀ e ∈ cachePush c s p, e.2 ≠ [] := by
  induction c with
  | nil => simp [cachePush, cacheBlocks]
  | cons e c ih =>
    obtain ⟨s', l⟩ := e
    simp only [cachePush]
    split
    · rename_i hs
      subst hs
      constructor
      · rw [cacheBlocks_cons, cacheBlocks_cons]
        simp only [List.map_append, List.map_cons, List.map_nil, List.append_assoc, List.singleton_append]
        exact List.perm_middle
      · intro e he
        rcases List.mem_cons.1 he with rfl | he
        · simp
        · exact hne e (by simp [he])
    · obtain ⟨i1, i2⟩ := ih (fun e he => hne e (by simp [he]))
      constructor
      · rw [cacheBlocks_cons, cacheBlocks_cons]
        exact (i1.append_left _).trans List.perm_middle
      · intro e he
        rcases List.mem_cons.1 he with rfl | he
        · exact hne _ (by simp)
        · exact i2 e he

/-- popFromCache: the invariants with the popped block taken apart -/
theorem popFromCache_none {st : State} {s a : Nat} (h : cachePop st.cached s a = none) : popFromCache st s a = (st, 0) := by
  unfold popFromCache; rw [h]

theorem mapSet_new {m : List (Nat × Nat)} {k v : Nat} (h : ∀ e ∈ m, e.1 ≠ k) : mapSet m k v = (k, v) :: m := by
  unfold mapSet
  rw [List.filter_eq_self.2]
  intro e he; simpa using h e he

/-- everything about provide -/
theorem provide_spec {st : State} (hi : Inv st) {sz nel a q : Nat} (hl : LegalOp st (.provide sz nel a q)) (hn : nel ≠ 0) :
    ∃ st' p, provide st sz nel a q = (st', p) ∧ Inv st' ∧ st'.used = (p, sz * nel) :: st.used ∧ p % a = 0 ∧ p ≠ 0 ∧
      (∀ b ∈ st.used, b.1 ≠ p) ∧ Up st.usedSize st'.usedSize ∧ Dn st.cachedSize st'.cachedSize ∧ st'.useCache = st.useCache ∧
      (∀ b ∈ st'.sys, b ∈ st.sys ∨ b.1 = q) := by
  obtain ⟨h1, h2, h3, h4, h5⟩ := hl
  have hsz : 0 < sz * nel := Nat.mul_pos h1 (by omega)
  unfold provide
  rw [if_neg hn]
  cases hc : cachePop st.cached (sz * nel) a with
  | none =>
    simp only [popFromCache_none hc, if_true, allocateRaw, pushToUsed]
    have hnew : ∀ e ∈ st.used, e.1 ≠ q := by
      intro e he heq
      have hm : e ∈ st.sys := hi.perm.mem_iff.1 (List.mem_append_left _ he)
      have := h5 e hm; have := hi.sys.pos e hm
      unfold Disjoint at *; simp only at *; omega
    rw [mapSet_new hnew]
    refine ⟨_, _, rfl, ⟨?_, ?_, hi.ne, ?_, hi.cachedVal, ?_, hi.cachedExtr⟩, rfl, h4, h3, hnew, add_up (Int.natCast_nonneg _), dn_refl, rfl, ?_⟩
    · exact hi.perm.cons _
    · refine ⟨List.pairwise_cons.2 ⟨h5, hi.sys.disj⟩, fun b hb => ?_⟩
      rcases List.mem_cons.1 hb with rfl | hb
      · exact ⟨h3, hsz⟩
      · exact hi.sys.pos b hb
    · rw [add_val, total_cons, hi.usedVal]; omega
    · exact up_le (add_up (Int.natCast_nonneg _))
    · intro b hb
      rcases List.mem_cons.1 hb with rfl | hb
      · exact Or.inr rfl
      · exact Or.inl hb
  | some r =>
    obtain ⟨p, c⟩ := r
    obtain ⟨i1, i2, i3⟩ := cachePop_spec hc hi.ne
    have hm : (p, sz * nel) ∈ st.sys := hi.perm.mem_iff.1 (List.mem_append_right _ (i1.mem_iff.2 (by simp)))
    have hp : p ≠ 0 := (hi.sys.pos _ hm).1
    have hperm : ((p, sz * nel) :: (st.used ++ cacheBlocks c)).Perm st.sys :=
      (List.perm_middle.symm.trans (i1.symm.append_left _)).trans hi.perm
    have hnew : ∀ e ∈ st.used, e.1 ≠ p := by
      intro e he heq
      have hnd := (hi.sys.perm hperm.symm).nodup
      rw [List.map_cons, List.nodup_cons] at hnd
      exact hnd.1 (List.mem_map.2 ⟨e, List.mem_append_left _ he, heq⟩)
    simp only [popFromCache, hc, if_neg hp, pushToUsed]
    rw [mapSet_new hnew]
    refine ⟨_, _, rfl, ⟨?_, hi.sys, i3, ?_, ?_, ?_, ?_⟩, rfl, i2, hp, hnew, add_up (Int.natCast_nonneg _), add_dn (by omega) hi.cachedExtr, rfl, fun b hb => Or.inl hb⟩
    · exact hperm
    · rw [add_val, total_cons, hi.usedVal]; omega
    · rw [add_val, hi.cachedVal, total_perm i1, total_cons]; simp only; omega
    · exact up_le (add_up (Int.natCast_nonneg _))
    · exact dn_le (add_dn (by omega) hi.cachedExtr) hi.cachedExtr

/-- everything about a release which does not crash -/
theorem release_spec {st : State} (hi : Inv st) {p : Nat} (hp : p ≠ 0) (hm : ∃ e ∈ st.used, e.1 = p) :
    ∃ st' s, release st p = some st' ∧ Inv st' ∧ st.used.Perm ((p, s) :: st'.used) ∧ Dn st.usedSize st'.usedSize ∧
      Up st.cachedSize st'.cachedSize ∧ st'.useCache = st.useCache ∧ (∀ b ∈ st'.sys, b ∈ st.sys) ∧
      (st.useCache = false → st'.cached = st.cached) ∧ st'.used = st.used.eraseP (fun e => e.1 == p) := by
  obtain ⟨e, he, hep⟩ := hm
  have hfs : (st.used.find? (fun e => e.1 == p)).isSome := by rw [List.find?_isSome]; exact ⟨e, he, by simpa using hep⟩
  obtain ⟨f, hf⟩ := Option.isSome_iff_exists.1 hfs
  have hfm := List.mem_of_find?_eq_some hf
  have hfp : f.1 = p := by simpa using List.find?_some hf
  have hnd : (st.used.map Prod.fst).Nodup := by
    have := (hi.sys.perm hi.perm.symm).nodup
    rw [List.map_append] at this
    exact (List.nodup_append.1 this).1
  have hpe : st.used.Perm ((p, f.2) :: st.used.eraseP (fun e => e.1 == p)) := by
    obtain ⟨a, l1, l2, h1, h2, h3, h4⟩ := List.exists_of_eraseP hfm (p := fun e : Nat × Nat => e.1 == p) (by simpa using hfp)
    have ha : a = f := by
      have h2' : a.1 = p := by simpa using h2
      exact List.inj_on_of_nodup_map hnd (by rw [h3]; simp) hfm (h2'.trans hfp.symm)
    have hf' : (p, f.2) = f := by rw [← hfp]
    rw [h4, hf']
    conv_lhs => rw [h3, ha]
    exact List.perm_middle
  unfold release
  rw [if_neg hp]
  have hpop : popFromUsed st p = some ({ st with used := st.used.eraseP (fun e => e.1 == p), usedSize := st.usedSize.add (-(f.2 : Int)) }, f.2) := by
    unfold popFromUsed; rw [hf]
  rw [hpop]
  simp only [Option.map_some]
  have hdn : Dn st.usedSize (st.usedSize.add (-(f.2 : Int))) := add_dn (by omega) hi.usedExtr
  have huv : (st.usedSize.add (-(f.2 : Int))).val = total (st.used.eraseP (fun e => e.1 == p)) := by
    rw [add_val, hi.usedVal, total_perm hpe, total_cons]; omega
  cases hu : st.useCache with
  | true =>
    simp only [if_true]
    obtain ⟨j1, j2⟩ := cachePush_spec st.cached f.2 p hi.ne
    refine ⟨_, f.2, rfl, ⟨?_, hi.sys, j2, huv, ?_, dn_le hdn hi.usedExtr, ?_⟩, hpe, hdn, add_up (Int.natCast_nonneg _), ?_, fun b hb => hb, by simp, rfl⟩
    · refine ((j1.append_left _).trans ?_).trans hi.perm
      exact List.perm_middle.trans (hpe.symm.append_right _)
    · simp only [pushToCache]
      rw [add_val, hi.cachedVal, total_perm j1, total_cons]; simp only; omega
    · exact up_le (add_up (Int.natCast_nonneg _))
    · simp [pushToCache, hu]
  | false =>
    have hper : st.sys.Perm ((p, f.2) :: (st.used.eraseP (fun e => e.1 == p) ++ cacheBlocks st.cached)) :=
      hi.perm.symm.trans (hpe.append_right _)
    have he := eraseP_perm hi.sys.nodup hper
    refine ⟨_, f.2, rfl, ⟨he.symm, ?_, hi.ne, huv, hi.cachedVal, dn_le hdn hi.usedExtr, hi.cachedExtr⟩, hpe, hdn, up_refl hi.cachedExtr, ?_, ?_, fun _ => rfl, rfl⟩
    · exact ((hi.sys.perm hper).tail).perm he.symm
    · simp [deAllocateRaw, hu]
    · intro b hb; exact List.mem_of_mem_eraseP hb

/-- a release of something else crashes -/
theorem release_crash {st : State} {p : Nat} (hp : p ≠ 0) (hm : ¬ ∃ e ∈ st.used, e.1 = p) : release st p = none := by
  have : st.used.find? (fun e => e.1 == p) = none := by
    rw [List.find?_eq_none]; intro e he hh; exact hm ⟨e, he, by simpa using hh⟩
  unfold release popFromUsed
  rw [if_neg hp, this]; simp

theorem releaseList_spec (ps : List Nat) {st : State} (hi : Inv st) (hp : ps.Perm (st.used.map Prod.fst)) :
    ∃ st', ps.foldl (fun s p => s.bind (release · p)) (some st) = some st' ∧ Inv st' ∧ st'.used = [] ∧ Dn st.usedSize st'.usedSize ∧
      Up st.cachedSize st'.cachedSize ∧ st'.useCache = st.useCache ∧ (∀ b ∈ st'.sys, b ∈ st.sys) := by
  induction ps generalizing st with
  | nil =>
    have : st.used = [] := by have := hp.symm.eq_nil; simpa using this
    exact ⟨st, rfl, hi, this, dn_refl, up_refl hi.cachedExtr, rfl, fun b hb => hb⟩
  | cons p ps ih =>
    have hm : p ∈ st.used.map Prod.fst := hp.mem_iff.1 (by simp)
    obtain ⟨e, he, hep⟩ := List.mem_map.1 hm
    have hp0 : p ≠ 0 := hep ▸ (hi.sys.pos e (hi.perm.mem_iff.1 (List.mem_append_left _ he))).1
    obtain ⟨st1, s, r1, r2, r3, r4, r5, r6, r7, r8, r9⟩ := release_spec hi hp0 ⟨e, he, hep⟩
    have hp' : ps.Perm (st1.used.map Prod.fst) := by
      have := hp.trans (r3.map Prod.fst)
      rw [List.map_cons] at this
      exact (List.perm_cons p).1 this
    obtain ⟨st2, q1, q2, q3, q4, q5, q6, q7⟩ := ih r2 hp'
    refine ⟨st2, ?_, q2, q3, dn_trans r4 q4, up_trans r5 q5, q6.trans r6, fun b hb => r7 b (q7 b hb)⟩
    rw [List.foldl_cons]
    simp only [Option.bind_some, r1]
    exact q1

/-- one turn of clearCache -/
theorem clearOne_spec {st : State} (hi : Inv st) (s : Nat) :
    let r := popFromCache st s 16
    Inv (deAllocateRaw r.1 r.2) ∧ (deAllocateRaw r.1 r.2).used = st.used ∧ (deAllocateRaw r.1 r.2).usedSize = st.usedSize ∧
      Dn st.cachedSize (deAllocateRaw r.1 r.2).cachedSize ∧ (deAllocateRaw r.1 r.2).useCache = st.useCache ∧
      (∀ b ∈ (deAllocateRaw r.1 r.2).sys, b ∈ st.sys) := by
  cases hc : cachePop st.cached s 16 with
  | none =>
    rw [popFromCache_none hc]
    have : deAllocateRaw st 0 = st := by
      unfold deAllocateRaw
      rw [List.eraseP_of_forall_not]
      intro b hb; simpa using (hi.sys.pos b hb).1
    show Inv (deAllocateRaw st 0) ∧ _
    rw [this]
    exact ⟨hi, rfl, rfl, dn_refl, rfl, fun b hb => hb⟩
  | some r =>
    obtain ⟨p, c⟩ := r
    obtain ⟨i1, i2, i3⟩ := cachePop_spec hc hi.ne
    have hperm : st.sys.Perm ((p, s) :: (st.used ++ cacheBlocks c)) :=
      hi.perm.symm.trans ((i1.append_left _).trans List.perm_middle)
    have he := eraseP_perm hi.sys.nodup hperm
    unfold popFromCache
    rw [hc]
    have hdn : Dn st.cachedSize (st.cachedSize.add (-(s : Int))) := add_dn (by omega) hi.cachedExtr
    refine ⟨⟨he.symm, ((hi.sys.perm hperm).tail).perm he.symm, i3, hi.usedVal, ?_, hi.usedExtr, dn_le hdn hi.cachedExtr⟩, rfl, rfl, hdn, rfl,
      fun b hb => List.mem_of_mem_eraseP hb⟩
    show (st.cachedSize.add (-(s : Int))).val = total (cacheBlocks c)
    rw [add_val, hi.cachedVal, total_perm i1, total_cons]; simp only; omega

theorem clearSize_spec (s n : Nat) {st : State} (hi : Inv st) :
    Inv (clearSize st s n) ∧ (clearSize st s n).used = st.used ∧ (clearSize st s n).usedSize = st.usedSize ∧
      Dn st.cachedSize (clearSize st s n).cachedSize ∧ (clearSize st s n).useCache = st.useCache ∧ (∀ b ∈ (clearSize st s n).sys, b ∈ st.sys) := by
  unfold clearSize
  induction n with
  | zero => exact ⟨hi, rfl, rfl, dn_refl, rfl, fun b hb => hb⟩
  | succ n ih =>
    rw [List.range_succ, List.foldl_append]
    obtain ⟨a, b, c, d, e, f⟩ := ih
    obtain ⟨a', b', c', d', e', f'⟩ := clearOne_spec a s
    exact ⟨a', b'.trans b, c'.trans c, dn_trans d d', e'.trans e, fun x hx => f x (f' x hx)⟩

theorem clearList_spec (c : List (Nat × List Nat)) {st : State} (hi : Inv st) :
    let st' := c.foldl (fun s e => clearSize s e.1 e.2.length) st
    Inv st' ∧ st'.used = st.used ∧ st'.usedSize = st.usedSize ∧ Dn st.cachedSize st'.cachedSize ∧ st'.useCache = st.useCache ∧
      (∀ b ∈ st'.sys, b ∈ st.sys) := by
  induction c generalizing st with
  | nil => exact ⟨hi, rfl, rfl, dn_refl, rfl, fun b hb => hb⟩
  | cons e c ih =>
    obtain ⟨a, b, c', d, e', f⟩ := clearSize_spec e.1 e.2.length hi
    obtain ⟨a2, b2, c2, d2, e2, f2⟩ := ih a
    exact ⟨a2, b2.trans b, c2.trans c', dn_trans d d2, e2.trans e', fun x hx => f x (f2 x hx)⟩

theorem clearSize_empty {st : State} {s : Nat} {l : List Nat} {r : List (Nat × List Nat)} (hc : st.cached = (s, l) :: r)
    (ha : ∀ p ∈ l, p % 16 = 0) (hl : l ≠ []) : (clearSize st s l.length).cached = r := by
  unfold clearSize
  induction h : l.length generalizing st l with
  | zero => exact absurd (List.length_eq_zero_iff.1 h) hl
  | succ n ih =>
    rw [List.range_succ_eq_map, List.foldl_cons, List.foldl_map]
    have hr : l.reverse ≠ [] := by simpa using hl
    obtain ⟨x, xs, hx⟩ := List.exists_cons_of_ne_nil hr
    have hxm : x ∈ l := by have : x ∈ l.reverse := by rw [hx]; simp
                           simpa using this
    have hl' : l = xs.reverse ++ [x] := by have := congrArg List.reverse hx; simpa using this
    have hpop : cachePop st.cached s 16 = some (x, if xs.reverse = [] then r else (s, xs.reverse) :: r) := by
      rw [hc]; simp only [cachePop, if_true, hx, revPop, ha x hxm]
    have hlen : xs.reverse.length = n := by rw [hl'] at h; simp at h; simpa using h
    by_cases hxs : xs.reverse = []
    · have : n = 0 := by rw [← hlen, hxs]; rfl
      subst this
      simp [popFromCache, hpop, deAllocateRaw, show xs = [] by simpa using hxs]
    · have := ih (st := deAllocateRaw (popFromCache st s 16).1 (popFromCache st s 16).2) (l := xs.reverse)
        (by simp [popFromCache, hpop, deAllocateRaw, show xs ≠ [] by simpa using hxs])
        (fun p hp => ha p (by rw [hl']; simp at hp ⊢; exact Or.inl hp)) hxs hlen
      exact this

theorem clearList_empty (c : List (Nat × List Nat)) {st : State} (hc : st.cached = c)
    (ha : ∀ b ∈ cacheBlocks c, b.1 % 16 = 0) (hne : ∀ e ∈ c, e.2 ≠ []) :
    (c.foldl (fun s e => clearSize s e.1 e.2.length) st).cached = [] := by
  induction c generalizing st with
  | nil => exact hc
  | cons e c ih =>
    rw [List.foldl_cons]
    refine ih ?_ ?_ (fun e he => hne e (by simp [he]))
    · refine clearSize_empty (s := e.1) (l := e.2) hc (fun p hp => ?_) (hne e (by simp))
      exact ha (p, e.1) (by rw [cacheBlocks_cons]; exact List.mem_append_left _ (List.mem_map_of_mem hp))
    · intro b hb; exact ha b (by rw [cacheBlocks_cons]; exact List.mem_append_right _ hb)

end Nissa.Mem
