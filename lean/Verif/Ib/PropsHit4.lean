import Verif.Ib.PropsHit3
import Mathlib.Data.Finset.Card
import Mathlib.Data.Finset.Filter

/-! # The looper on the hits: the memory -/

set_option linter.all false

namespace Nissa.Hit

section
variable {N V : Type} [LinearOrder N] (p : Plan N V)

theorem mapM_ok {α β : Type} {f : α → Except Err β} {g : α → β} : ∀ (l : List α), (∀ x ∈ l, f x = .ok (g x)) → l.mapM f = .ok (l.map g) := by
  intro l
  induction l with
  | nil => intro _; rfl
  | cons a l ih =>
    intro h
    rw [List.mapM_cons, h a List.mem_cons_self, ih fun x hx => h x (List.mem_cons_of_mem _ hx)]
    rfl

theorem idxOf?_some {s : N} : ∀ {l : List N}, s ∈ l → l.idxOf? s = some (l.idxOf s) := by
  intro l
  induction l with
  | nil => intro h; simp at h
  | cons a l ih =>
    intro h
    rw [List.idxOf?_cons, List.idxOf_cons]
    by_cases e : a = s
    · subst e; simp
    · have hb : (a == s) = false := by simpa using e
      rw [hb, ih (by rcases List.mem_cons.1 h with h | h
                     · exact absurd h.symm e
                     · exact h)]
      simp

/-- in a sorted list with few small elements, what follows is large -/
theorem drop_large {α : Type} (k m : Nat) {l : List (Nat × α)} (hs : l.Pairwise fun x y => x.1 ≤ y.1) (hc : (l.filter fun x => x.1 < k).length ≤ m) : ∀ x ∈ l.drop m, k ≤ x.1 := by
  intro x hx
  by_contra hlt
  push Not at hlt
  have hml : m < l.length := by
    by_contra h
    rw [List.drop_eq_nil_of_le (by omega)] at hx
    simp at hx
  rw [← List.take_append_drop m l, List.pairwise_append] at hs
  have h1 : ∀ y ∈ l.take m, y.1 < k := fun y hy => lt_of_le_of_lt (hs.2.2 y hy x hx) hlt
  have h2 : (l.filter fun x => x.1 < k).length = ((l.take m).filter fun x => x.1 < k).length + ((l.drop m).filter fun x => x.1 < k).length := by
    rw [← List.length_append, ← List.filter_append, List.take_append_drop]
  have h3 : ((l.take m).filter fun x => x.1 < k) = l.take m := List.filter_eq_self.2 fun y hy => by simpa using h1 y hy
  have h4 : 0 < ((l.drop m).filter fun x => x.1 < k).length := List.length_pos_of_mem (List.mem_filter.2 ⟨hx, by simpa using hlt⟩)
  rw [h3, List.length_take] at h2
  omega

/-- condition of the memory: `val` is the content the propagators must have, `B` the largest number allowed -/
structure MInv (val : N → V) (B : Nat) (st : St N V) : Prop where
  mem : ∀ x, st.mem x ≠ none ↔ st.status x = some .IN_MEMORY
  valid : ∀ x ad v, st.mem x = some (ad, v) → v = val x
  key : ∀ x, st.status x ≠ none → x ∈ keys p ∧ st.status x ≠ some .NOT_COMPUTED
  off : ∀ x, st.status x = some .OFFLOADED → x ∈ st.offloaded
  alive : ∀ x ∈ st.offloaded, st.status x ≠ none
  disk : ∀ x, st.disk x = if x ∈ st.offloaded then some (val x) else none
  nooff : p.nMax = 0 → st.offloaded = ∅
  count : p.nMax ≠ 0 → nAlloc p st ≤ B
  peak : p.nMax ≠ 0 → st.peak ≤ B

/-- what is not touched while bringing propagators in memory -/
structure Rel (l : List N) (st st' : St N V) : Prop where
  ctrl : ctrl st' = ctrl st
  lib : st'.lib = st.lib
  out2 : st'.out2 = st.out2
  outS : st'.outS = st.outS
  alive : ∀ x, st'.status x = none ↔ st.status x = none
  keep : ∀ x ∈ l, st.mem x ≠ none → st'.mem x = st.mem x

theorem Rel.refl (l : List N) (st : St N V) : Rel l st st := ⟨rfl, rfl, rfl, rfl, fun _ => Iff.rfl, fun _ _ _ => rfl⟩

theorem Rel.trans {l : List N} {st st' st'' : St N V} (h : Rel l st st') (h' : Rel l st' st'') : Rel l st st'' :=
  ⟨h'.ctrl.trans h.ctrl, h'.lib.trans h.lib, h'.out2.trans h.out2, h'.outS.trans h.outS, fun x => (h'.alive x).trans (h.alive x), fun x hx hm => by
    have := h.keep x hx hm
    rw [h'.keep x hx (by rw [this]; exact hm), this]⟩

/-- the propagators alive will be used, the first being those of the list -/
def Ctx (l : List N) (st : St N V) : Prop :=
  p.nMax ≠ 0 → ∃ rest, st.orderedDep.drop st.nPassedDep = l ++ rest ∧ ∀ x, st.status x ≠ none → x ∈ l ++ rest

variable {p} in
theorem Ctx.rel {l : List N} {st st' : St N V} (h : Ctx p l st) (hr : Rel l st st') : Ctx p l st' := by
  intro hn
  obtain ⟨rest, h1, h2⟩ := h hn
  obtain ⟨-, -, -, -, e1, e2⟩ := ctrl_eq hr.ctrl
  refine ⟨rest, by rw [e1, e2]; exact h1, fun x hx => h2 x fun h => hx ((hr.alive x).2 h)⟩

variable {val : N → V} {B : Nat}

theorem nAlloc_card (hk : (keys p).Nodup) (st : St N V) : nAlloc p st = ((keys p).toFinset.filter fun n => (st.mem n).isSome).card := by
  unfold nAlloc
  rw [← List.toFinset_filter, List.toFinset_card_of_nodup (hk.filter _)]

theorem nAlloc_mono (hk : (keys p).Nodup) (st st' : St N V) (h : ∀ x, st'.mem x ≠ none → st.mem x ≠ none) : nAlloc p st' ≤ nAlloc p st := by
  rw [nAlloc_card p hk, nAlloc_card p hk]
  refine Finset.card_le_card fun x hx => ?_
  rw [Finset.mem_filter, Option.isSome_iff_ne_none] at hx ⊢
  exact ⟨hx.1, h x hx.2⟩

theorem nAlloc_add (hk : (keys p).Nodup) (n : N) (st st' : St N V) (h : ∀ x, x ≠ n → st'.mem x ≠ none → st.mem x ≠ none) : nAlloc p st' ≤ nAlloc p st + 1 := by
  rw [nAlloc_card p hk, nAlloc_card p hk]
  refine le_trans (Finset.card_le_card (t := insert n ((keys p).toFinset.filter fun n => (st.mem n).isSome)) fun x hx => ?_) (Finset.card_insert_le _ _)
  rw [Finset.mem_filter, Option.isSome_iff_ne_none] at hx
  rw [Finset.mem_insert, Finset.mem_filter, Option.isSome_iff_ne_none]
  by_cases e : x = n
  · exact .inl e
  · exact .inr ⟨hx.1, h x e hx.2⟩

/-! ### Offloading -/

/-- one propagator written to disk -/
def offOne (x : N) (st : St N V) : St N V :=
  { st with disk := Function.update st.disk x (some (val x)), mem := Function.update st.mem x none, status := Function.update st.status x (some .OFFLOADED), offloaded := insert x st.offloaded }

theorem offStep (hk : (keys p).Nodup) (hn : p.nMax ≠ 0) {x : N} {st : St N V} (h : MInv p val B st) (hx : st.status x = some .IN_MEMORY) :
    (do let s ← offload x st; pure { s with offloaded := insert x s.offloaded } : Except Err (St N V)) = .ok (offOne (val := val) x st) ∧ MInv p val B (offOne (val := val) x st) := by
  have hm := (h.mem x).2 hx
  constructor
  · unfold offload
    rcases e : st.mem x with _ | ⟨ad, v⟩
    · exact absurd e hm
    · have := h.valid x ad v e
      subst this
      simp only
      rw [if_neg (by rw [hx]; simp)]
      rfl
  · refine ⟨fun y => ?_, fun y ad v e => ?_, fun y e => ?_, fun y e => ?_, fun y e => ?_, fun y => ?_, fun h' => absurd h' hn, fun _ => ?_, h.peak⟩
    · by_cases e : y = x
      · subst e; simp [offOne]
      · simp only [offOne, Function.update_of_ne e]; exact h.mem y
    · by_cases e' : y = x
      · subst e'; simp [offOne] at e
      · simp only [offOne, Function.update_of_ne e'] at e; exact h.valid y ad v e
    · by_cases e' : y = x
      · subst e'; exact ⟨(h.key y (by rw [hx]; simp)).1, by simp [offOne]⟩
      · simp only [offOne, Function.update_of_ne e'] at e ⊢; exact h.key y e
    · by_cases e' : y = x
      · subst e'; exact Finset.mem_insert_self _ _
      · simp only [offOne, Function.update_of_ne e'] at e; exact Finset.mem_insert_of_mem (h.off y e)
    · by_cases e' : y = x
      · subst e'; simp [offOne]
      · simp only [offOne, Function.update_of_ne e', Finset.mem_insert, e', false_or] at e ⊢; exact h.alive y e
    · by_cases e' : y = x
      · subst e'; simp [offOne]
      · simp only [offOne, Function.update_of_ne e', Finset.mem_insert, e', false_or]; exact h.disk y
    · refine le_trans (nAlloc_mono p hk st _ fun y hy => ?_) (h.count hn)
      by_cases e' : y = x
      · subst e'; exact hm
      · simpa [offOne, Function.update_of_ne e'] using hy

theorem offAll (hk : (keys p).Nodup) (hn : p.nMax ≠ 0) : ∀ (ds : List (Nat × N)) (st : St N V), (ds.map Prod.snd).Nodup → (∀ d ∈ ds, st.status d.2 = some .IN_MEMORY ∧ d.1 ≠ 0) → MInv p val B st →
    ∃ st', ds.foldlM (fun (st : St N V) (dn : Nat × N) => if dn.1 = 0 then (.error .crash : Except Err (St N V)) else do
        let st ← offload dn.2 st
        pure { st with offloaded := insert dn.2 st.offloaded }) st = .ok st' ∧ MInv p val B st' ∧ (∀ x, st'.mem x = if x ∈ ds.map Prod.snd then none else st.mem x) ∧
      (∀ x, st'.status x = if x ∈ ds.map Prod.snd then some .OFFLOADED else st.status x) ∧ ctrl st' = ctrl st ∧ st'.lib = st.lib ∧ st'.out2 = st.out2 ∧ st'.outS = st.outS := by
  intro ds
  induction ds with
  | nil => intro st _ _ h; exact ⟨st, rfl, h, fun x => by simp, fun x => by simp, rfl, rfl, rfl, rfl⟩
  | cons d ds ih =>
    intro st hd hm h
    rw [List.map_cons, List.nodup_cons] at hd
    obtain ⟨e1, h1⟩ := offStep p hk hn h (hm d List.mem_cons_self).1
    obtain ⟨st', a1, a2, a3, a4, a5, a6, a7, a8⟩ := ih (offOne (val := val) d.2 st) hd.2 (fun e he => by
      have hne : e.2 ≠ d.2 := fun hc => hd.1 (hc ▸ List.mem_map_of_mem he)
      refine ⟨?_, (hm e (List.mem_cons_of_mem _ he)).2⟩
      simp only [offOne, Function.update_of_ne hne]
      exact (hm e (List.mem_cons_of_mem _ he)).1) h1
    refine ⟨st', ?_, a2, fun x => ?_, fun x => ?_, a5, a6, a7, a8⟩
    · rw [List.foldlM_cons, if_neg (hm d List.mem_cons_self).2, e1]
      exact a1
    · rw [a3]
      simp only [List.map_cons, List.mem_cons]
      by_cases e : x = d.2
      · subst e; simp [offOne]
      · simp only [e, false_or, offOne, Function.update_of_ne e]
    · rw [a4]
      simp only [List.map_cons, List.mem_cons]
      by_cases e : x = d.2
      · subst e; simp [offOne]
      · simp only [e, false_or, offOne, Function.update_of_ne e]

theorem idxOf_lt_append {l rest : List N} {x : N} (hx : x ∈ l ++ rest) : (l ++ rest).idxOf x < l.length ↔ x ∈ l := by
  constructor
  · intro h
    by_contra hc
    rw [List.idxOf_append_of_notMem hc] at h
    omega
  · intro h
    rw [List.idxOf_append_of_mem h]
    exact List.idxOf_lt_length_iff.2 h

/-- room is made without touching the propagators of the list -/
theorem accommodate_ok (hk : (keys p).Nodup) (l : List N) (st : St N V) (h : MInv p val B st) (hc : Ctx p l st) (h2 : p.nMax ≠ 0 → 2 ≤ p.nMax)
    (hl : p.nMax ≠ 0 → (l.toFinset.filter fun x => st.mem x ≠ none).card + 1 ≤ p.nMax) :
    ∃ st', accommodate p 1 st = .ok st' ∧ MInv p val B st' ∧ Rel l st st' ∧ (p.nMax ≠ 0 → nAlloc p st' + 1 ≤ p.nMax) ∧ (∀ x, st'.mem x ≠ none → st.mem x ≠ none) ∧
      ∀ x, st.status x ≠ some .IN_MEMORY → st'.status x = st.status x := by
  by_cases hn : p.nMax = 0
  · refine ⟨st, ?_, h, Rel.refl l st, fun h' => absurd hn h', fun _ h => h, fun _ _ => rfl⟩
    unfold accommodate
    rw [if_pos hn]
  · obtain ⟨rest, hdd, hall⟩ := hc hn
    set L := (keys p).filter fun s => st.status s = some .IN_MEMORY with hL
    have hLm : ∀ x, x ∈ L ↔ st.status x = some .IN_MEMORY := fun x => by
      rw [hL, List.mem_filter, decide_eq_true_iff]
      exact ⟨fun h => h.2, fun h' => ⟨(h.key x (by rw [h']; simp)).1, h'⟩⟩
    have hLn : L.Nodup := hk.filter _
    have hfd : futureDeps p st = .ok (L.map fun s => ((l ++ rest).idxOf s, s)) := by
      unfold futureDeps
      refine mapM_ok _ fun x hx => ?_
      rw [hdd, idxOf?_some (hall x (by rw [(hLm x).1 hx]; simp))]
    set fd := L.map fun s => ((l ++ rest).idxOf s, s) with hfdd
    set sd := fd.insertionSort (fun x y => toLex x ≤ toLex y) with hsd
    have hperm : sd.Perm fd := List.perm_insertionSort _ _
    haveI : Std.Total (fun x y : Nat × N => toLex x ≤ toLex y) := ⟨fun x y => le_total _ _⟩
    haveI : IsTrans (Nat × N) (fun x y : Nat × N => toLex x ≤ toLex y) := ⟨fun x y z h1 h2 => le_trans h1 h2⟩
    have hsorted : sd.Pairwise fun x y => x.1 ≤ y.1 := (List.pairwise_insertionSort (fun x y : Nat × N => toLex x ≤ toLex y) fd).imp fun {x y} h => by
      rw [Prod.Lex.toLex_le_toLex] at h
      rcases h with h | h
      · exact h.le
      · exact h.1.le
    have hsn : (sd.map Prod.snd).Nodup := by
      rw [(hperm.map Prod.snd).nodup_iff, hfdd, List.map_map]
      exact (List.map_id L).symm ▸ hLn
    have hmem : ∀ d ∈ sd, d.2 ∈ L ∧ d.1 = (l ++ rest).idxOf d.2 := fun d hd => by
      obtain ⟨x, hx, rfl⟩ := List.mem_map.1 (hperm.mem_iff.1 hd)
      exact ⟨hx, rfl⟩
    have hin : ∀ d ∈ sd, d.2 ∈ l ++ rest := fun d hd => hall d.2 (by rw [(hLm _).1 (hmem d hd).1]; simp)
    -- few propagators of the list in memory
    have hA : ∀ d ∈ sd.drop (p.nMax - 1), d.2 ∉ l := by
      intro d hd hdl
      have := drop_large l.length (p.nMax - 1) hsorted ?_ d hd
      · rw [(hmem d (List.mem_of_mem_drop hd)).2] at this
        have := (idxOf_lt_append (hin d (List.mem_of_mem_drop hd))).2 hdl
        omega
      · have h3 := hl hn
        have : (sd.filter fun x => x.1 < l.length).length ≤ (l.toFinset.filter fun x => st.mem x ≠ none).card := by
          have hnd : ((sd.filter fun x => x.1 < l.length).map Prod.snd).Nodup := hsn.sublist ((List.filter_sublist).map _)
          rw [← List.length_map (f := Prod.snd), ← List.toFinset_card_of_nodup hnd]
          refine Finset.card_le_card fun x hx => ?_
          rw [List.mem_toFinset] at hx
          obtain ⟨d, hd, rfl⟩ := List.mem_map.1 hx
          obtain ⟨hd1, hd2⟩ := List.mem_filter.1 hd
          rw [decide_eq_true_iff, (hmem d hd1).2, idxOf_lt_append (hin d hd1)] at hd2
          rw [Finset.mem_filter, List.mem_toFinset]
          exact ⟨hd2, (h.mem _).2 ((hLm _).1 (hmem d hd1).1)⟩
        omega
    have hB : ∀ d ∈ sd.drop (p.nMax - 1), d.1 ≠ 0 := by
      intro d hd
      have h3 := h2 hn
      have := drop_large 1 (p.nMax - 1) hsorted ?_ d hd
      · omega
      · have : (sd.filter fun x => x.1 < 1).length ≤ 1 := by
          have hnd : ((sd.filter fun x => x.1 < 1).map Prod.snd).Nodup := hsn.sublist ((List.filter_sublist).map _)
          rw [← List.length_map (f := Prod.snd), ← List.toFinset_card_of_nodup hnd, Finset.card_le_one]
          intro a ha b hb
          rw [List.mem_toFinset] at ha hb
          obtain ⟨d, hd, rfl⟩ := List.mem_map.1 ha
          obtain ⟨e, he, rfl⟩ := List.mem_map.1 hb
          obtain ⟨hd1, hd2⟩ := List.mem_filter.1 hd
          obtain ⟨he1, he2⟩ := List.mem_filter.1 he
          simp only [decide_eq_true_eq] at hd2 he2
          have k1 := (hmem d hd1).2
          have k2 := (hmem e he1).2
          refine (List.idxOf_inj (hin d hd1)).1 ?_
          omega
        omega
    obtain ⟨st', a1, a2, a3, a4, a5, a6, a7, a8⟩ := offAll p hk hn (sd.drop (p.nMax - 1)) st (hsn.sublist ((List.drop_sublist _ _).map _)) (fun d hd => ⟨(hLm _).1 (hmem d (List.mem_of_mem_drop hd)).1, hB d hd⟩) h
    have hD : ∀ x ∈ (sd.drop (p.nMax - 1)).map Prod.snd, st.status x = some .IN_MEMORY ∧ x ∉ l := by
      intro x hx
      obtain ⟨d, hd, rfl⟩ := List.mem_map.1 hx
      exact ⟨(hLm _).1 (hmem d (List.mem_of_mem_drop hd)).1, hA d hd⟩
    refine ⟨st', ?_, a2, ⟨a5, a6, a7, a8, fun x => ?_, fun x hx hm => ?_⟩, fun _ => ?_, fun x hx => ?_, fun x hx => ?_⟩
    · unfold accommodate
      rw [if_neg hn, hfd]
      exact a1
    · rw [a4]
      split
      · rename_i hx
        rw [(hD x hx).1]; simp
      · exact Iff.rfl
    · rw [a3, if_neg fun hc => (hD x hc).2 hx]
    · have : nAlloc p st' ≤ (sd.take (p.nMax - 1)).length := by
        rw [nAlloc_card p hk, ← List.length_map (f := Prod.snd)]
        refine le_trans (Finset.card_le_card (t := ((sd.take (p.nMax - 1)).map Prod.snd).toFinset) fun x hx => ?_) (List.toFinset_card_le _)
        rw [Finset.mem_filter, Option.isSome_iff_ne_none, a3] at hx
        split at hx
        · exact absurd rfl hx.2
        · rename_i hx'
          have hxL : x ∈ sd.map Prod.snd := by
            refine (hperm.map Prod.snd).mem_iff.2 ?_
            rw [hfdd, List.map_map]
            exact List.mem_map.2 ⟨x, (hLm x).2 ((h.mem x).1 hx.2), rfl⟩
          rw [← List.take_append_drop (p.nMax - 1) sd, List.map_append, List.mem_append] at hxL
          rw [List.mem_toFinset]
          exact hxL.resolve_right hx'
      rw [List.length_take] at this
      have := h2 hn
      omega
    · rw [a3] at hx
      split at hx
      · exact absurd rfl hx
      · exact hx
    · rw [a4, if_neg fun hc => hx (hD x hc).1]

/-! ### Filling -/

/-- a propagator not in memory is allocated and filled -/
theorem fill_ok (hk : (keys p).Nodup) (hB : p.nMax ≤ B) {x : N} {st : St N V} (h : MInv p val B st) (hx : x ∈ keys p) (hm : st.mem x = none) (hc : p.nMax ≠ 0 → nAlloc p st + 1 ≤ p.nMax) (v : V) (hv : v = val x) :
    MInv p val B { fill p x v st with status := Function.update st.status x (some .IN_MEMORY) } ∧ (∀ y, y ≠ x → (fill p x v st).mem y = st.mem y) ∧ (fill p x v st).mem x = some (st.fresh, v) := by
  subst hv
  have e : fill p x (val x) st = { st with mem := Function.update st.mem x (some (st.fresh, val x)), fresh := st.fresh + 1, peak := max st.peak (nAlloc p { st with mem := Function.update st.mem x (some (st.fresh, val x)), fresh := st.fresh + 1 }) } := by
    unfold fill
    rw [hm]
  have hcnt : nAlloc p { st with mem := Function.update st.mem x (some (st.fresh, val x)), fresh := st.fresh + 1 } ≤ nAlloc p st + 1 := nAlloc_add p hk x _ _ fun y hy hne => by
    simpa [Function.update_of_ne hy] using hne
  refine ⟨⟨fun y => ?_, fun y ad v he => ?_, fun y he => ?_, fun y he => ?_, fun y he => ?_, fun y => ?_, fun hn => ?_, fun hn => ?_, fun hn => ?_⟩, fun y hy => ?_, ?_⟩
  · rw [e]
    by_cases hy : y = x
    · subst hy; simp
    · simp only [Function.update_of_ne hy]; exact h.mem y
  · rw [e] at he
    by_cases hy : y = x
    · subst hy; simp at he; exact he.2.symm
    · simp only [Function.update_of_ne hy] at he; exact h.valid y ad v he
  · by_cases hy : y = x
    · subst hy; exact ⟨hx, by simp⟩
    · simp only [Function.update_of_ne hy] at he ⊢; exact h.key y he
  · by_cases hy : y = x
    · subst hy; simp at he
    · simp only [Function.update_of_ne hy] at he; rw [e]; exact h.off y he
  · by_cases hy : y = x
    · subst hy; simp
    · simp only [Function.update_of_ne hy]; rw [e] at he; exact h.alive y he
  · rw [e]; exact h.disk y
  · rw [e]; exact h.nooff hn
  · rw [e]; exact le_trans hcnt (le_trans (hc hn) hB)
  · rw [e]; exact max_le (h.peak hn) (le_trans hcnt (le_trans (hc hn) hB))
  · rw [e]; simp only [Function.update_of_ne hy]
  · rw [e]; simp

/-- reading back from disk -/
theorem ensure_ok (hk : (keys p).Nodup) (hB : p.nMax ≤ B) (l : List N) (st : St N V) (h : MInv p val B st) (hc : Ctx p l st) (h2 : p.nMax ≠ 0 → 2 ≤ p.nMax) (hl : p.nMax ≠ 0 → l.toFinset.card ≤ p.nMax)
    (x : N) (hx : x ∈ l) (ha : st.status x ≠ none) : ∃ st', ensure p x st = .ok st' ∧ MInv p val B st' ∧ Rel l st st' ∧ st'.mem x ≠ none := by
  unfold ensure
  by_cases ho : st.status x = some .OFFLOADED
  · rw [if_pos ho]
    unfold recall
    rw [if_neg (by simp [ho])]
    have hm : st.mem x = none := by
      by_contra hc
      have := (h.mem x).1 hc
      rw [ho] at this
      cases this
    obtain ⟨s1, a1, a2, a3, a4, a5, a6⟩ := accommodate_ok p hk l st h hc h2 (fun hn => by
      have : (l.toFinset.filter fun x => st.mem x ≠ none).card < l.toFinset.card := Finset.card_lt_card (by
        rw [Finset.filter_ssubset]
        exact ⟨x, List.mem_toFinset.2 hx, by simpa using hm⟩)
      have := hl hn
      omega)
    have ho1 : s1.status x = some .OFFLOADED := by rw [a6 x (by rw [ho]; simp), ho]
    have hm1 : s1.mem x = none := by
      by_contra hc
      exact a5 x hc hm
    have hd : s1.disk x = some (val x) := by rw [a2.disk, if_pos (a2.off x ho1)]
    obtain ⟨b1, b2, b3⟩ := fill_ok p hk hB a2 (a2.key x (by rw [ho1]; simp)).1 hm1 a4 (val x) rfl
    refine ⟨_, ?_, b1, a3.trans ?_, ?_⟩
    · rw [a1]
      show (match s1.disk x with | none => _ | some v => _) = _
      rw [hd]
      rfl
    · refine ⟨?_, ?_, ?_, ?_, fun y => ?_, fun y hy hmy => ?_⟩
      · exact (show ctrl (fill p x (val x) s1) = _ from fill_ctrl p x _ s1)
      · show (fill p x (val x) s1).lib = _
        unfold fill; rw [hm1]
      · show (fill p x (val x) s1).out2 = _
        unfold fill; rw [hm1]
      · show (fill p x (val x) s1).outS = _
        unfold fill; rw [hm1]
      · by_cases hy : y = x
        · subst hy; simp [ho1]
        · simp only [Function.update_of_ne hy]
      · by_cases hy : y = x
        · subst hy; exact absurd hm1 hmy
        · exact b2 y hy
    · show (fill p x (val x) s1).mem x ≠ none
      rw [b3]; simp
  · rw [if_neg ho]
    have hin : st.status x = some .IN_MEMORY := by
      have := (h.key x ha).2
      rcases e : st.status x with _ | (_ | _ | _)
      · exact absurd e ha
      · exact absurd e this
      · rfl
      · exact absurd e ho
    have e : ({ st with status := Function.update st.status x (some ((st.status x).getD .NOT_COMPUTED)) } : St N V) = st := by
      have : Function.update st.status x (some ((st.status x).getD .NOT_COMPUTED)) = st.status := by
        rw [hin]
        show Function.update st.status x (some .IN_MEMORY) = _
        rw [← hin]
        exact Function.update_eq_self x st.status
      rw [this]
    exact ⟨st, by rw [e], h, Rel.refl l st, (h.mem x).2 hin⟩

theorem prepare_ok (hk : (keys p).Nodup) (hB : p.nMax ≤ B) (l : List N) (h2 : p.nMax ≠ 0 → 2 ≤ p.nMax) (hl : p.nMax ≠ 0 → l.toFinset.card ≤ p.nMax) :
    ∀ (l' : List N) (st : St N V), (∀ x ∈ l', x ∈ l) → (∀ x ∈ l', st.status x ≠ none) → MInv p val B st → Ctx p l st →
    ∃ st', prepare p false l' st = .ok st' ∧ MInv p val B st' ∧ Rel l st st' ∧ ∀ x ∈ l', st'.mem x ≠ none := by
  intro l'
  induction l' with
  | nil => intro st _ _ h _; exact ⟨st, rfl, h, Rel.refl l st, fun x hx => by simp at hx⟩
  | cons a l' ih =>
    intro st hs ha h hc
    obtain ⟨s1, a1, a2, a3, a4⟩ := ensure_ok p hk hB l st h hc h2 hl a (hs a List.mem_cons_self) (ha a List.mem_cons_self)
    obtain ⟨s2, b1, b2, b3, b4⟩ := ih s1 (fun x hx => hs x (List.mem_cons_of_mem _ hx)) (fun x hx h' => ha x (List.mem_cons_of_mem _ hx) ((a3.alive x).1 h')) a2 (hc.rel a3)
    refine ⟨s2, ?_, b2, a3.trans b3, fun x hx => ?_⟩
    · unfold prepare at b1 ⊢
      rw [List.foldlM_cons]
      simp only [Bool.false_eq_true, if_false] at b1 ⊢
      rw [a1]
      exact b1
    · rcases List.mem_cons.1 hx with rfl | hx
      · rw [b3.keep x (hs x List.mem_cons_self) a4]; exact a4
      · exact b4 x hx

/-! ### Erasing -/

theorem eraseUnneeded_ok (hk : (keys p).Nodup) (st : St N V) (h : MInv p val B st) (hu : ∀ x, st.status x ≠ none → st.propDep x = ∅ → st.mem x ≠ none) :
    ∃ st', eraseUnneeded p st = .ok st' ∧ MInv p val B st' ∧ (∀ x, st'.status x = if st.propDep x = ∅ then none else st.status x) ∧ (∀ x, st.propDep x ≠ ∅ → st'.mem x = st.mem x) ∧
      ctrl st' = ctrl st ∧ st'.lib = st.lib ∧ st'.out2 = st.out2 ∧ st'.outS = st.outS := by
  have key : ∀ (l : List N) (s : St N V), l.Nodup → MInv p val B s → (∀ x ∈ l, s.mem x ≠ none) →
      ∃ s', l.foldlM (fun st e => eraseOne e st) s = .ok s' ∧ MInv p val B s' ∧ (∀ x, s'.status x = if x ∈ l then none else s.status x) ∧ (∀ x, x ∉ l → s'.mem x = s.mem x) ∧
        ctrl s' = ctrl s ∧ s'.lib = s.lib ∧ s'.out2 = s.out2 ∧ s'.outS = s.outS := by
    intro l
    induction l with
    | nil => intro s _ hs _; exact ⟨s, rfl, hs, fun x => by simp, fun x _ => rfl, rfl, rfl, rfl, rfl⟩
    | cons a l ih =>
      intro s hl hs hm
      rw [List.nodup_cons] at hl
      have hma := hm a List.mem_cons_self
      let s1 : St N V := { s with status := Function.update s.status a none, offloaded := s.offloaded.erase a, disk := Function.update s.disk a none, mem := Function.update s.mem a none }
      have e1 : eraseOne a s = .ok s1 := by
        unfold eraseOne
        simp only
        by_cases ho : a ∈ s.offloaded
        · rw [if_pos ho, if_neg hma]
        · rw [if_neg ho]
          have e2 : s.offloaded.erase a = s.offloaded := Finset.erase_eq_of_notMem ho
          have e3 : Function.update s.disk a none = s.disk := by
            have : s.disk a = none := by rw [hs.disk, if_neg ho]
            rw [← this]; exact Function.update_eq_self a s.disk
          simp only [s1, e2, e3]
      have h1 : MInv p val B s1 := by
        refine ⟨fun y => ?_, fun y ad v he => ?_, fun y he => ?_, fun y he => ?_, fun y he => ?_, fun y => ?_, fun hn => ?_, fun hn => ?_, fun hn => hs.peak hn⟩
        · by_cases hy : y = a
          · subst hy; simp [s1]
          · simp only [s1, Function.update_of_ne hy]; exact hs.mem y
        · by_cases hy : y = a
          · subst hy; simp [s1] at he
          · simp only [s1, Function.update_of_ne hy] at he; exact hs.valid y ad v he
        · by_cases hy : y = a
          · subst hy; simp [s1] at he
          · simp only [s1, Function.update_of_ne hy] at he ⊢; exact hs.key y he
        · by_cases hy : y = a
          · subst hy; simp [s1] at he
          · simp only [s1, Function.update_of_ne hy] at he
            exact Finset.mem_erase.2 ⟨hy, hs.off y he⟩
        · have := Finset.mem_erase.1 he
          simp only [s1, Function.update_of_ne this.1]
          exact hs.alive y this.2
        · by_cases hy : y = a
          · subst hy; simp [s1]
          · simp only [s1, Function.update_of_ne hy, Finset.mem_erase, hy, ne_eq, not_false_eq_true, true_and]; exact hs.disk y
        · simp only [s1]; rw [hs.nooff hn]; rfl
        · refine le_trans (nAlloc_mono p hk s _ fun y hy => ?_) (hs.count hn)
          by_cases e' : y = a
          · subst e'; exact hma
          · simpa [s1, Function.update_of_ne e'] using hy
      obtain ⟨s', b1, b2, b3, b4, b5, b6, b7, b8⟩ := ih s1 hl.2 h1 (fun x hx => by
        have : x ≠ a := fun e => hl.1 (e ▸ hx)
        simp only [s1, Function.update_of_ne this]
        exact hm x (List.mem_cons_of_mem _ hx))
      refine ⟨s', ?_, b2, fun x => ?_, fun x hx => ?_, b5, b6, b7, b8⟩
      · rw [List.foldlM_cons, e1]; exact b1
      · rw [b3]
        by_cases hy : x = a
        · subst hy; simp [s1]
        · simp only [s1, Function.update_of_ne hy, List.mem_cons, hy, false_or]
      · rw [List.mem_cons, not_or] at hx
        rw [b4 x hx.2]
        simp only [s1, Function.update_of_ne hx.1]
  obtain ⟨st', a1, a2, a3, a4, a5, a6, a7, a8⟩ := key ((keys p).filter fun n => (st.status n).isSome ∧ st.propDep n = ∅) st (hk.filter _) h (fun x hx => by
    have := (List.mem_filter.1 hx).2
    simp only [decide_eq_true_eq] at this
    exact hu x (Option.isSome_iff_ne_none.1 this.1) this.2)
  refine ⟨st', a1, a2, fun x => ?_, fun x hx => a4 x fun hc => ?_, a5, a6, a7, a8⟩
  · rw [a3]
    by_cases hd : st.propDep x = ∅
    · rw [if_pos hd]
      split
      · rfl
      · rename_i hx
        by_contra hne
        exact hx (List.mem_filter.2 ⟨(h.key x hne).1, by simpa using ⟨Option.isSome_iff_ne_none.2 hne, hd⟩⟩)
    · rw [if_neg hd, if_neg fun hc => ?_]
      have := (List.mem_filter.1 hc).2
      simp only [decide_eq_true_eq] at this
      exact hd this.2
  · have := (List.mem_filter.1 hc).2
    simp only [decide_eq_true_eq] at this
    exact hx this.2

end

end Nissa.Hit
