import Verif.Ib.PropsHit4

/-! # The looper on the hits: each operation -/

set_option linter.all false

namespace Nissa.Hit

section
variable {N V : Type} [LinearOrder N] (p : Plan N V) {val : N → V} {B : Nat}

theorem bind_of_ok {α β : Type} {x : Except Err α} {a : α} (h : x = .ok a) (f : α → Except Err β) : x >>= f = f a := by subst h; rfl

/-- the pointers of the meson contractions are good for the next operation -/
def LibOk (rem : List (Op N)) (st : St N V) : Prop :=
  match rem with
  | .contr _ a b :: _ => ∀ x ad, st.lib x = some ad → (x = a ∨ x = b) → ∃ v, st.mem x = some (ad, v)
  | .clear :: _ => True
  | _ => ∀ x, st.lib x = none

theorem libOk_empty (rem : List (Op N)) (st : St N V) (h : ∀ x, st.lib x = none) : LibOk rem st := by
  cases rem with
  | nil => exact h
  | cons o r => cases o with
    | contr i a b => intro x ad e; rw [h] at e; cases e
    | clear => trivial
    | gen n => exact h
    | side s a b => exact h

/-- results of an operation -/
def Op.res2 (val : N → V) : Op N → List (Nat × V × V)
  | .contr i a b => [(i, val a, val b)]
  | _ => []

def Op.resS (val : N → V) : Op N → List (N × V × V)
  | .side s a b => [(s, val a, val b)]
  | _ => []

/-- state of the program when the operations `rem` remain -/
structure Inv (val : N → V) (B : Nat) (started : Prop) (rem : List (Op N)) (st : St N V) : Prop where
  m : MInv p val B st
  good : Good p st.computedProps rem
  tags : Tags p rem
  dep : ∀ x t, t ∈ st.propDep x ↔ ∃ o ∈ rem, x ∈ o.operands p ∧ o.tag p = some t
  alive : ∀ x ∈ st.computedProps, st.propDep x ≠ ∅ → st.status x ≠ none
  notyet : ∀ x, x ∉ st.computedProps → st.status x = none
  tight : started ∨ p.nMax ≠ 0 → ∀ x, st.status x ≠ none → st.propDep x ≠ ∅
  ord : p.nMax ≠ 0 → st.orderedDep.drop st.nPassedDep = rem.flatMap (Op.operands p)
  lib : LibOk rem st

variable {p}

theorem tag_some {o : Op N} {x : N} (hx : x ∈ o.operands p) : ∃ t, o.tag p = some t := by
  cases o with
  | clear => simp [Op.operands] at hx
  | gen n => exact ⟨_, rfl⟩
  | contr i a b => exact ⟨_, rfl⟩
  | side s a b => exact ⟨_, rfl⟩

theorem Inv.used {started : Prop} {rem : List (Op N)} {st : St N V} (h : Inv p val B started rem st) {o : Op N} (ho : o ∈ rem) {x : N} (hx : x ∈ o.operands p) : st.propDep x ≠ ∅ := by
  obtain ⟨t, ht⟩ := tag_some hx
  exact Finset.nonempty_iff_ne_empty.1 ⟨t, (h.dep x t).2 ⟨o, ho, hx, ht⟩⟩

theorem Inv.operand {started : Prop} {o : Op N} {rem : List (Op N)} {st : St N V} (h : Inv p val B started (o :: rem) st) {x : N} (hx : x ∈ o.operands p) : st.status x ≠ none :=
  h.alive x (h.good.1 x hx) (h.used List.mem_cons_self hx)

theorem Inv.ctx {started : Prop} {o : Op N} {rem : List (Op N)} {st : St N V} (h : Inv p val B started (o :: rem) st) : Ctx p (o.operands p) st := by
  intro hn
  refine ⟨rem.flatMap (Op.operands p), by rw [h.ord hn, List.flatMap_cons], fun x hx => ?_⟩
  obtain ⟨t, ht⟩ := Finset.nonempty_iff_ne_empty.2 (h.tight (.inr hn) x hx)
  obtain ⟨o', ho', hx', -⟩ := (h.dep x t).1 ht
  rw [← List.flatMap_cons]
  exact List.mem_flatMap.2 ⟨o', ho', hx'⟩

/-- dependencies after an operation -/
theorem dep_step {o : Op N} {rem : List (Op N)} {d d' : N → Finset N} (ht : Tags p (o :: rem)) (h : ∀ x t, t ∈ d x ↔ ∃ o' ∈ o :: rem, x ∈ o'.operands p ∧ o'.tag p = some t)
    (hd : ∀ x, d' x = if x ∈ o.operands p then o.dropTag p (d x) else d x) (x t : N) : t ∈ d' x ↔ ∃ o' ∈ rem, x ∈ o'.operands p ∧ o'.tag p = some t := by
  have ht' := (List.pairwise_cons.1 ht).1
  rw [hd]
  by_cases hx : x ∈ o.operands p
  · rw [if_pos hx]
    obtain ⟨t0, e0⟩ := tag_some hx
    unfold Op.dropTag
    rw [e0]
    simp only
    rw [Finset.mem_erase, h]
    constructor
    · rintro ⟨hne, o', ho', h1, h2⟩
      rcases List.mem_cons.1 ho' with rfl | ho'
      · rw [e0] at h2; exact absurd (Option.some.inj h2).symm hne
      · exact ⟨o', ho', h1, h2⟩
    · rintro ⟨o', ho', h1, h2⟩
      refine ⟨?_, o', List.mem_cons_of_mem _ ho', h1, h2⟩
      rintro rfl
      exact ht' o' ho' _ e0 h2
  · rw [if_neg hx, h]
    constructor
    · rintro ⟨o', ho', h1, h2⟩
      rcases List.mem_cons.1 ho' with rfl | ho'
      · exact absurd h1 hx
      · exact ⟨o', ho', h1, h2⟩
    · rintro ⟨o', ho', h1, h2⟩
      exact ⟨o', List.mem_cons_of_mem _ ho', h1, h2⟩

theorem dep_sub {o : Op N} {d d' : N → Finset N} (hd : ∀ x, d' x = if x ∈ o.operands p then o.dropTag p (d x) else d x) (x : N) (h : d' x ≠ ∅) : d x ≠ ∅ := by
  rw [hd] at h
  split at h
  · intro e
    rw [e] at h
    unfold Op.dropTag at h
    split at h <;> simp at h
  · exact h

theorem status_cases (h : MInv p val B st) (hn : p.nMax = 0) {x : N} (hx : st.status x ≠ none) : st.mem x ≠ none := by
  rw [h.mem]
  have := (h.key x hx).2
  rcases e : st.status x with _ | (_ | _ | _)
  · exact absurd e hx
  · exact absurd e this
  · rfl
  · have := h.off x e
    rw [h.nooff hn] at this
    simp at this

/-- the end of an operation -/
theorem finish (hk : (keys p).Nodup) {started : Prop} {o : Op N} {rem : List (Op N)} {st s : St N V} (h : Inv p val B started (o :: rem) st) (hm : MInv p val B s)
    (hd : ∀ x, s.propDep x = if x ∈ o.operands p then o.dropTag p (st.propDep x) else st.propDep x)
    (h1 : ∀ x ∈ o.operands p, s.mem x ≠ none) (h2 : ∀ x, s.status x ≠ none ↔ st.status x ≠ none ∨ (x ∈ o.addProps ∅)) (h3 : ∀ x ∈ o.addProps ∅, s.mem x ≠ none) :
    ∃ s', eraseUnneeded p s = .ok s' ∧ MInv p val B s' ∧ (∀ x, s'.status x = if s.propDep x = ∅ then none else s.status x) ∧ (∀ x, s.propDep x ≠ ∅ → s'.mem x = s.mem x) ∧
      ctrl s' = ctrl s ∧ s'.lib = s.lib ∧ s'.out2 = s.out2 ∧ s'.outS = s.outS := by
  refine eraseUnneeded_ok p hk s hm fun x hx he => ?_
  by_cases hxo : x ∈ o.operands p
  · exact h1 x hxo
  · rcases (h2 x).1 hx with hx' | hx'
    · rw [hd, if_neg hxo] at he
      have hn : p.nMax = 0 := by
        by_contra hn
        exact h.tight (.inr hn) x hx' he
      exact status_cases hm hn hx
    · exact h3 x hx'

theorem addProps_mem {o : Op N} {C : Finset N} {x : N} : x ∈ o.addProps C ↔ x ∈ C ∨ x ∈ o.addProps ∅ := by
  cases o with
  | gen n => simp only [Op.addProps, Finset.mem_insert, Finset.notMem_empty, or_false]; tauto
  | contr i a b => simp [Op.addProps]
  | clear => simp [Op.addProps]
  | side s a b => simp [Op.addProps]

/-- the invariant after an operation -/
theorem inv_step {started : Prop} {o : Op N} {rem : List (Op N)} {st st' : St N V} (h : Inv p val B started (o :: rem) st) (hc : CtrlStep p false o st st') (hm : MInv p val B st')
    (ha : ∀ x, st'.propDep x ≠ ∅ → (st'.status x ≠ none ↔ st.status x ≠ none ∨ x ∈ o.addProps ∅)) (ht : ∀ x, st'.propDep x = ∅ → st'.status x = none) (hl : LibOk rem st') : Inv p val B True rem st' := by
  refine ⟨hm, ?_, (List.pairwise_cons.1 h.tags).2, dep_step h.tags h.dep hc.dep, fun x hx he => ?_, fun x hx => ?_, fun _ x hx he => hx (ht x he), fun hn => ?_, hl⟩
  · rw [hc.props]; exact h.good.2.2
  · rw [hc.props, addProps_mem] at hx
    refine (ha x he).2 ?_
    rcases hx with hx | hx
    · exact .inl (h.alive x hx (dep_sub hc.dep x he))
    · exact .inr hx
  · by_contra hne
    have he : st'.propDep x ≠ ∅ := fun e => hne (ht x e)
    rw [hc.props, addProps_mem, not_or] at hx
    rcases (ha x he).1 hne with h' | h'
    · exact h' (h.notyet x hx.1)
    · exact hx.2 h'
  · rw [hc.ord, hc.passed]
    simp only [Bool.false_eq_true, if_false]
    rw [← List.drop_drop, h.ord hn, List.flatMap_cons, List.drop_left]

/-! ### Contractions -/

theorem computeContr_ok (i : Nat) (a b : N) (st : St N V) (h : MInv p val B st) (ha : st.mem a ≠ none) (hb : st.mem b ≠ none)
    (hl : ∀ x ad, st.lib x = some ad → (x = a ∨ x = b) → ∃ v, st.mem x = some (ad, v)) :
    ∃ L, computeContr i a b st = .ok { st with lib := L, out2 := st.out2 ++ [(i, val a, val b)] } ∧ ∀ x ad, L x = some ad → (x = a ∨ x = b) ∧ ∃ v, st.mem x = some (ad, v) := by
  obtain ⟨⟨ada, va⟩, ea⟩ := Option.ne_none_iff_exists'.1 ha
  obtain ⟨⟨adb, vb⟩, eb⟩ := Option.ne_none_iff_exists'.1 hb
  have va' := h.valid a ada va ea
  have vb' := h.valid b adb vb eb
  subst va' vb'
  have step : ∀ (s : St N V) (n : N) (ad : Nat) (v : V), s.mem n = some (ad, v) → (∀ ad', s.lib n = some ad' → ad' = ad) →
      (if s.lib n = none then match s.mem n with | none => .error .freed | some (ad, _) => pure { s with lib := Function.update s.lib n (some ad) } else pure s : Except Err (St N V)) =
        .ok { s with lib := Function.update s.lib n (some ad) } := by
    intro s n ad v e1 e2
    split
    · rw [e1]; rfl
    · rename_i hne
      obtain ⟨ad', e3⟩ := Option.ne_none_iff_exists'.1 hne
      have e4 := e2 ad' e3
      subst e4
      have : Function.update s.lib n (some ad') = s.lib := by rw [← e3]; exact Function.update_eq_self n s.lib
      rw [this]
      rfl
  let L0 : N → Option Nat := fun n => if n ≠ a ∧ n ≠ b then none else st.lib n
  have hL0 : ∀ x ad, L0 x = some ad → (x = a ∨ x = b) ∧ ∃ v, st.mem x = some (ad, v) := by
    intro x ad e
    simp only [L0] at e
    split at e
    · cases e
    · rename_i hx
      have : x = a ∨ x = b := by
        by_contra hc
        push Not at hc
        exact hx hc
      exact ⟨this, hl x ad e this⟩
  let L1 := Function.update L0 a (some ada)
  let L2 := Function.update L1 b (some adb)
  have hL2 : ∀ x ad, L2 x = some ad → (x = a ∨ x = b) ∧ ∃ v, st.mem x = some (ad, v) := by
    intro x ad e
    by_cases hxb : x = b
    · subst hxb
      simp only [L2, Function.update_self, Option.some.injEq] at e
      subst e
      exact ⟨.inr rfl, _, eb⟩
    · simp only [L2, Function.update_of_ne hxb] at e
      by_cases hxa : x = a
      · subst hxa
        simp only [L1, Function.update_self, Option.some.injEq] at e
        subst e
        exact ⟨.inl rfl, _, ea⟩
      · simp only [L1, Function.update_of_ne hxa] at e
        exact hL0 x ad e
  refine ⟨L2, ?_, hL2⟩
  have e1 := step { st with lib := L0 } a ada (val a) ea (fun ad' e => by
    obtain ⟨-, v, e'⟩ := hL0 a ad' e
    rw [ea] at e'
    exact (Prod.mk.inj (Option.some.inj e')).1.symm)
  have e2 := step { st with lib := L1 } b adb (val b) eb (fun ad' e => by
    by_cases hba : b = a
    · subst hba
      simp only [L1, Function.update_self, Option.some.injEq] at e
      rw [ea] at eb
      rw [← e]
      exact (Prod.mk.inj (Option.some.inj eb)).1
    · simp only [L1, Function.update_of_ne hba] at e
      obtain ⟨-, v, e'⟩ := hL0 b ad' e
      rw [eb] at e'
      exact (Prod.mk.inj (Option.some.inj e')).1.symm)
  have e3 : readLib { st with lib := L2 } a = .ok (val a) := by
    unfold readLib
    have : L2 a = some ada := by
      by_cases hab : a = b
      · subst hab
        simp only [L2, Function.update_self]
        rw [ea] at eb
        exact congrArg some (Prod.mk.inj (Option.some.inj eb)).1.symm
      · simp only [L2, Function.update_of_ne hab, L1, Function.update_self]
    simp only [this, ea, if_true]
  have e4 : readLib { st with lib := L2 } b = .ok (val b) := by
    unfold readLib
    have : L2 b = some adb := by simp only [L2, Function.update_self]
    simp only [this, eb, if_true]
  unfold computeContr
  refine (bind_of_ok (a := { st with lib := L2 }) ?_ _).trans ?_
  · rw [List.foldlM_cons]
    refine (bind_of_ok e1 _).trans ?_
    rw [List.foldlM_cons]
    refine (bind_of_ok e2 _).trans rfl
  · refine (bind_of_ok e3 _).trans ?_
    refine (bind_of_ok e4 _).trans rfl

theorem exec_contr (hp : Valid p) (hB : p.nMax ≤ B) {started : Prop} {i : Nat} {a b : N} {rem : List (Op N)} {st : St N V} (h : Inv p val B started (.contr i a b :: rem) st) :
    ∃ st', exec p false st (.contr i a b) = .ok st' ∧ Inv p val B True rem st' ∧ st'.out2 = st.out2 ++ [(i, val a, val b)] ∧ st'.outS = st.outS := by
  have h2 : p.nMax ≠ 0 → 2 ≤ p.nMax := fun hn => (hp.limit hn).1
  have hm0 : MInv p val B { st with computed2pts := insert i st.computed2pts } := ⟨h.m.mem, h.m.valid, h.m.key, h.m.off, h.m.alive, h.m.disk, h.m.nooff, h.m.count, h.m.peak⟩
  obtain ⟨s1, a1, a2, a3, a4⟩ := prepare_ok p hp.names hB [a, b] h2 (fun hn => le_trans (List.toFinset_card_le _) (h2 hn)) [a, b] { st with computed2pts := insert i st.computed2pts } (fun x hx => hx)
    (fun x hx => h.operand (o := .contr i a b) hx) hm0 h.ctx
  have hlib : ∀ x ad, s1.lib x = some ad → (x = a ∨ x = b) → ∃ v, s1.mem x = some (ad, v) := by
    intro x ad e hx
    rw [a3.lib] at e
    obtain ⟨v, hv⟩ := h.lib x ad e hx
    refine ⟨v, ?_⟩
    rw [a3.keep x (by simpa using hx) (show st.mem x ≠ none by rw [hv]; simp)]
    exact hv
  obtain ⟨L, b1, b2⟩ := computeContr_ok i a b s1 a2 (a4 a (by simp)) (a4 b (by simp)) hlib
  obtain ⟨c1, -, -, -, -, -⟩ := ctrl_eq a3.ctrl
  let s2 : St N V := { s1 with lib := L, out2 := s1.out2 ++ [(i, val a, val b)] }
  obtain ⟨s3, d1, d2, d3, d4, d5, d6, d7, d8⟩ := finish hp.names (s := dropDep (p.tag2 i) a b s2) h
    ⟨a2.mem, a2.valid, a2.key, a2.off, a2.alive, a2.disk, a2.nooff, a2.count, a2.peak⟩ (fun x => by rw [dropDep_dep]; show (if _ then Finset.erase (s1.propDep x) _ else s1.propDep x) = _; rw [c1]; rfl) (fun x hx => a4 x hx)
    (fun x => by
      show s1.status x ≠ none ↔ _
      rw [Ne, a3.alive x]; simp [Op.addProps]) (fun x hx => by simp [Op.addProps] at hx)
  have hex : exec p false st (.contr i a b) = .ok { s3 with nPassedDep := s3.nPassedDep + 2 } := by
    show contrStep p false i a b st = _
    unfold contrStep
    refine (bind_of_ok a1 _).trans ?_
    refine (bind_of_ok b1 _).trans ?_
    simp only [Bool.false_eq_true, if_false]
    exact (bind_of_ok d1 _).trans rfl
  have hc := exec_ctrl p false _ _ _ hex
  have hdep : ∀ x, s3.propDep x = (dropDep (p.tag2 i) a b s2).propDep x := fun x => by rw [(ctrl_eq d5).1]
  refine ⟨_, hex, inv_step h hc ⟨d2.mem, d2.valid, d2.key, d2.off, d2.alive, d2.disk, d2.nooff, d2.count, d2.peak⟩ (fun x hx => ?_) (fun x hx => ?_) ?_, ?_, ?_⟩
  · show s3.status x ≠ none ↔ _
    rw [d3, if_neg (by rw [← hdep]; exact hx)]
    show s1.status x ≠ none ↔ _
    rw [Ne, a3.alive x]; simp [Op.addProps]
  · show s3.status x = none
    rw [d3, if_pos (by rw [← hdep]; exact hx)]
  · obtain ⟨o', r, e, hf⟩ := h.good.2.1
    rw [e]
    cases o' with
    | gen n => exact hf.elim
    | side s a b => exact hf.elim
    | clear => trivial
    | contr i' a' b' =>
      intro x ad hx hx'
      have hx1 : s3.lib x = some ad := hx
      rw [d6] at hx1
      obtain ⟨-, v, hv⟩ := b2 x ad hx1
      refine ⟨v, ?_⟩
      show s3.mem x = _
      rw [d4 x ?_]
      · exact hv
      · rw [← hdep]
        refine Finset.nonempty_iff_ne_empty.1 ⟨p.tag2 i', (dep_step h.tags h.dep hc.dep x _).2 ⟨.contr i' a' b', by rw [e]; exact List.mem_cons_self, by simpa [Op.operands] using hx', rfl⟩⟩
  · show s3.out2 = _
    rw [d7]
    show s1.out2 ++ _ = _
    rw [a3.out2]
  · show s3.outS = _
    rw [d8]
    show s1.outS = _
    rw [a3.outS]

/-! ### Sides -/

theorem readMem_ok {st : St N V} (h : MInv p val B st) {x : N} (hx : st.mem x ≠ none) : readMem st x = .ok (val x) := by
  obtain ⟨⟨ad, v⟩, e⟩ := Option.ne_none_iff_exists'.1 hx
  unfold readMem
  rw [e]
  simp only
  rw [h.valid x ad v e]

theorem exec_side (hp : Valid p) (hB : p.nMax ≤ B) {started : Prop} {i a b : N} {rem : List (Op N)} {st : St N V} (h : Inv p val B started (.side i a b :: rem) st) :
    ∃ st', exec p false st (.side i a b) = .ok st' ∧ Inv p val B True rem st' ∧ st'.out2 = st.out2 ∧ st'.outS = st.outS ++ [(i, val a, val b)] := by
  have h2 : p.nMax ≠ 0 → 2 ≤ p.nMax := fun hn => (hp.limit hn).1
  have hm0 : MInv p val B { st with computedSides := insert i st.computedSides } := ⟨h.m.mem, h.m.valid, h.m.key, h.m.off, h.m.alive, h.m.disk, h.m.nooff, h.m.count, h.m.peak⟩
  obtain ⟨s1, a1, a2, a3, a4⟩ := prepare_ok p hp.names hB [a, b] h2 (fun hn => le_trans (List.toFinset_card_le _) (h2 hn)) [a, b] { st with computedSides := insert i st.computedSides } (fun x hx => hx)
    (fun x hx => h.operand (o := .side i a b) hx) hm0 h.ctx
  have hlib : ∀ x, s1.lib x = none := fun x => by rw [a3.lib]; exact h.lib x
  have b1 : computeSide i a b s1 = .ok { s1 with outS := s1.outS ++ [(i, val a, val b)] } := by
    unfold computeSide
    refine (bind_of_ok (readMem_ok a2 (a4 a (by simp))) _).trans ?_
    exact (bind_of_ok (readMem_ok a2 (a4 b (by simp))) _).trans rfl
  obtain ⟨c1, -, -, -, -, -⟩ := ctrl_eq a3.ctrl
  let s2 : St N V := { s1 with outS := s1.outS ++ [(i, val a, val b)] }
  obtain ⟨s3, d1, d2, d3, d4, d5, d6, d7, d8⟩ := finish hp.names (s := dropDep (p.tagS i) a b s2) h
    ⟨a2.mem, a2.valid, a2.key, a2.off, a2.alive, a2.disk, a2.nooff, a2.count, a2.peak⟩ (fun x => by rw [dropDep_dep]; show (if _ then Finset.erase (s1.propDep x) _ else s1.propDep x) = _; rw [c1]; rfl) (fun x hx => a4 x hx)
    (fun x => by
      show s1.status x ≠ none ↔ _
      rw [Ne, a3.alive x]; simp [Op.addProps]) (fun x hx => by simp [Op.addProps] at hx)
  have hex : exec p false st (.side i a b) = .ok { s3 with nPassedDep := s3.nPassedDep + 2 } := by
    show sideStep p false i a b st = _
    unfold sideStep
    refine (bind_of_ok a1 _).trans ?_
    refine (bind_of_ok b1 _).trans ?_
    simp only [Bool.false_eq_true, if_false]
    exact (bind_of_ok d1 _).trans rfl
  have hc := exec_ctrl p false _ _ _ hex
  have hdep : ∀ x, s3.propDep x = (dropDep (p.tagS i) a b s2).propDep x := fun x => by rw [(ctrl_eq d5).1]
  refine ⟨_, hex, inv_step h hc ⟨d2.mem, d2.valid, d2.key, d2.off, d2.alive, d2.disk, d2.nooff, d2.count, d2.peak⟩ (fun x hx => ?_) (fun x hx => ?_) ?_, ?_, ?_⟩
  · show s3.status x ≠ none ↔ _
    rw [d3, if_neg (by rw [← hdep]; exact hx)]
    show s1.status x ≠ none ↔ _
    rw [Ne, a3.alive x]; simp [Op.addProps]
  · show s3.status x = none
    rw [d3, if_pos (by rw [← hdep]; exact hx)]
  · refine libOk_empty _ _ fun x => ?_
    show s3.lib x = none
    rw [d6]
    exact hlib x
  · show s3.out2 = _
    rw [d7]
    show s1.out2 = _
    rw [a3.out2]
  · show s3.outS = _
    rw [d8]
    show s1.outS ++ _ = _
    rw [a3.outS]

theorem exec_clear {started : Prop} {rem : List (Op N)} {st : St N V} (h : Inv p val B started (.clear :: rem) st) :
    ∃ st', exec p false st .clear = .ok st' ∧ Inv p val B started rem st' ∧ st'.out2 = st.out2 ∧ st'.outS = st.outS := by
  refine ⟨_, rfl, ⟨⟨h.m.mem, h.m.valid, h.m.key, h.m.off, h.m.alive, h.m.disk, h.m.nooff, h.m.count, h.m.peak⟩, h.good.2.2, (List.pairwise_cons.1 h.tags).2, fun x t => ?_, h.alive, h.notyet, h.tight,
    fun hn => ?_, libOk_empty _ _ fun _ => rfl⟩, rfl, rfl⟩
  · rw [h.dep]
    constructor
    · rintro ⟨o, ho, h1, h2⟩
      rcases List.mem_cons.1 ho with rfl | ho
      · cases h2
      · exact ⟨o, ho, h1, h2⟩
    · rintro ⟨o, ho, h1, h2⟩
      exact ⟨o, List.mem_cons_of_mem _ ho, h1, h2⟩
  · rw [h.ord hn]; rfl

/-! ### Propagators -/

theorem exec_gen (hp : Valid p) (hB : p.nMax ≤ B) (hval : ∀ n ∈ p.qprops, val n = p.gen n ((p.sources n).map val)) {started : Prop} {n : N} {rem : List (Op N)} {st : St N V}
    (h : Inv p val B started (.gen n :: rem) st) : ∃ st', exec p false st (.gen n) = .ok st' ∧ Inv p val B True rem st' ∧ st'.out2 = st.out2 ∧ st'.outS = st.outS := by
  have h2 : p.nMax ≠ 0 → 2 ≤ p.nMax := fun hn => (hp.limit hn).1
  obtain ⟨hnC, hnq, hneed⟩ := h.good.2.1
  have hcard : p.nMax ≠ 0 → (p.sources n).toFinset.card + 1 ≤ p.nMax := fun hn => by
    have := (hp.limit hn).2.1 n hnq hneed
    have := List.toFinset_card_le (p.sources n)
    omega
  obtain ⟨s1, a1, a2, a3, a4⟩ := prepare_ok p hp.names hB (p.sources n) h2 (fun hn => by have := hcard hn; omega) (p.sources n) st (fun x hx => hx)
    (fun x hx => h.operand (o := .gen n) hx) h.m h.ctx
  obtain ⟨s2, b1, b2, b3, b4, b5, b6⟩ := accommodate_ok p hp.names (p.sources n) s1 a2 (Ctx.rel h.ctx a3) h2 (fun hn => by
    have := Finset.card_filter_le (p.sources n).toFinset (fun x => s1.mem x ≠ none)
    have := hcard hn
    omega)
  have hr := a3.trans b3
  have hin : ∀ x ∈ p.sources n, s2.mem x ≠ none := fun x hx => by rw [b3.keep x hx (a4 x hx)]; exact a4 x hx
  have hst : s2.status n = none := (hr.alive n).2 (h.notyet n hnC)
  have hmn : s2.mem n = none := by
    by_contra hc
    rw [← Ne, b2.mem, hst] at hc
    cases hc
  obtain ⟨f1, f2, f3⟩ := fill_ok p hp.names hB b2 (List.mem_append_right _ hnq) hmn b4 (p.gen n ((p.sources n).map val)) (hval n hnq).symm
  set F := fill p n (p.gen n ((p.sources n).map val)) s2 with hF
  have Fst : F.status = s2.status := by rw [hF]; unfold fill; rw [hmn]
  have Flib : F.lib = s2.lib := by rw [hF]; unfold fill; rw [hmn]
  have Fo2 : F.out2 = s2.out2 := by rw [hF]; unfold fill; rw [hmn]
  have FoS : F.outS = s2.outS := by rw [hF]; unfold fill; rw [hmn]
  have c1 : generate p n s2 = .ok F := by
    unfold generate
    exact (bind_of_ok (mapM_ok (p.sources n) fun x hx => readMem_ok b2 (hin x hx)) _).trans rfl
  let s4 : St N V := { F with status := Function.update F.status n (some .IN_MEMORY), computedProps := insert n F.computedProps }
  have hdepF : F.propDep = st.propDep := by
    have := (ctrl_eq (fill_ctrl p n (p.gen n ((p.sources n).map val)) s2)).1
    rw [← hF] at this
    rw [this, (ctrl_eq hr.ctrl).1]
  obtain ⟨s5, g1⟩ := dropGen_ok (n := n) (p.sources n) (hp.srcNodup n hnq) s4 (fun x hx => by
    show n ∈ F.propDep x
    rw [hdepF, h.dep]
    exact ⟨.gen n, List.mem_cons_self, hx, rfl⟩)
  obtain ⟨g2, g3, -, -⟩ := dropGen _ _ _ g1
  have m4 : MInv p val B s4 := by
    have : s4 = { { fill p n (p.gen n ((p.sources n).map val)) s2 with status := Function.update s2.status n (some .IN_MEMORY) } with computedProps := insert n F.computedProps } := by
      simp only [s4, Fst, ← hF]
    rw [this]
    exact ⟨f1.mem, f1.valid, f1.key, f1.off, f1.alive, f1.disk, f1.nooff, f1.count, f1.peak⟩
  have m5 : MInv p val B { s5 with nPassedDep := s5.nPassedDep + (p.sources n).length } := by
    rw [g3]
    exact ⟨m4.mem, m4.valid, m4.key, m4.off, m4.alive, m4.disk, m4.nooff, m4.count, m4.peak⟩
  have S5 : ∀ x, s5.status x ≠ none ↔ st.status x ≠ none ∨ x ∈ (Op.gen n).addProps ∅ := fun x => by
    rw [g3]
    show Function.update F.status n (some .IN_MEMORY) x ≠ none ↔ _
    by_cases hx : x = n
    · subst hx; simp [Op.addProps]
    · rw [Function.update_of_ne hx, Fst, Ne, hr.alive x]; simp [Op.addProps, hx]
  obtain ⟨s6, d1, d2, d3, d4, d5, d6, d7, d8⟩ := finish hp.names (s := { s5 with nPassedDep := s5.nPassedDep + (p.sources n).length }) h m5
    (fun x => by
      show s5.propDep x = _
      rw [g2 x]
      show (if _ then Finset.erase (F.propDep x) n else F.propDep x) = _
      rw [hdepF]
      rfl)
    (fun x hx => by
      show s5.mem x ≠ none
      rw [g3]
      show F.mem x ≠ none
      by_cases e : x = n
      · rw [e, f3]; simp
      · rw [f2 x e]; exact hin x hx)
    S5
    (fun x hx => by
      have e : x = n := by simpa [Op.addProps] using hx
      show s5.mem x ≠ none
      rw [g3]
      show F.mem x ≠ none
      rw [e, f3]; simp)
  have hex : exec p false st (.gen n) = .ok s6 := by
    show genStep p false n st = _
    unfold genStep
    refine (bind_of_ok a1 _).trans ?_
    have : genCompute p false n s1 = .ok { F with status := Function.update F.status n (some .IN_MEMORY) } := by
      unfold genCompute
      simp only [Bool.false_eq_true, if_false]
      refine (bind_of_ok b1 _).trans ?_
      exact (bind_of_ok c1 _).trans rfl
    refine (bind_of_ok this _).trans ?_
    refine (bind_of_ok g1 _).trans ?_
    simp only [Bool.false_eq_true, if_false]
    exact d1
  have hc := exec_ctrl p false _ _ _ hex
  have hdep : ∀ x, s6.propDep x = s5.propDep x := fun x => by rw [(ctrl_eq d5).1]
  refine ⟨s6, hex, inv_step h hc d2 (fun x hx => ?_) (fun x hx => ?_) ?_, ?_, ?_⟩
  · rw [d3, if_neg (by rw [hdep] at hx; exact hx)]
    exact S5 x
  · rw [d3, if_pos (by rw [hdep] at hx; exact hx)]
  · refine libOk_empty _ _ fun x => ?_
    rw [d6]
    show s5.lib x = none
    rw [g3]
    show F.lib x = none
    rw [Flib, hr.lib]
    exact h.lib x
  · rw [d7]
    show s5.out2 = _
    rw [g3]
    show F.out2 = _
    rw [Fo2, hr.out2]
  · rw [d8]
    show s5.outS = _
    rw [g3]
    show F.outS = _
    rw [FoS, hr.outS]

/-- all the operations -/
theorem exec_all (hp : Valid p) (hB : p.nMax ≤ B) (hval : ∀ n ∈ p.qprops, val n = p.gen n ((p.sources n).map val)) : ∀ (rem : List (Op N)) (started : Prop) (st : St N V), Inv p val B started rem st →
    ∃ st', rem.foldlM (exec p false) st = .ok st' ∧ Inv p val B (started ∨ ∃ o ∈ rem, ∃ n, o = .gen n) [] st' ∧ st'.out2 = st.out2 ++ rem.flatMap (Op.res2 val) ∧ st'.outS = st.outS ++ rem.flatMap (Op.resS val) := by
  intro rem
  induction rem with
  | nil =>
    intro started st h
    refine ⟨st, rfl, ?_, by simp, by simp⟩
    have : (started ∨ ∃ o ∈ ([] : List (Op N)), ∃ n, o = Op.gen n) = started := by simp
    rw [this]
    exact h
  | cons o rem ih =>
    intro started st h
    have weak : ∀ {P Q : Prop} {s : St N V}, (Q → P) → Inv p val B P [] s → Inv p val B Q [] s := fun hPQ h =>
      ⟨h.m, h.good, h.tags, h.dep, h.alive, h.notyet, fun h' => h.tight (h'.imp_left hPQ), h.ord, h.lib⟩
    cases o with
    | clear =>
      obtain ⟨s1, a1, a2, a3, a4⟩ := exec_clear h
      obtain ⟨s2, b1, b2, b3, b4⟩ := ih started s1 a2
      refine ⟨s2, ?_, weak ?_ b2, ?_, ?_⟩
      · rw [List.foldlM_cons]; exact (bind_of_ok a1 _).trans b1
      · rintro (h | ⟨o, ho, n, e⟩)
        · exact .inl h
        · rcases List.mem_cons.1 ho with rfl | ho
          · cases e
          · exact .inr ⟨o, ho, n, e⟩
      · rw [b3, a3]; rfl
      · rw [b4, a4]; rfl
    | gen n =>
      obtain ⟨s1, a1, a2, a3, a4⟩ := exec_gen hp hB hval h
      obtain ⟨s2, b1, b2, b3, b4⟩ := ih True s1 a2
      refine ⟨s2, ?_, weak (fun _ => .inl trivial) b2, ?_, ?_⟩
      · rw [List.foldlM_cons]; exact (bind_of_ok a1 _).trans b1
      · rw [b3, a3]; rfl
      · rw [b4, a4]; rfl
    | contr i a b =>
      obtain ⟨s1, a1, a2, a3, a4⟩ := exec_contr hp hB h
      obtain ⟨s2, b1, b2, b3, b4⟩ := ih True s1 a2
      refine ⟨s2, ?_, weak (fun _ => .inl trivial) b2, ?_, ?_⟩
      · rw [List.foldlM_cons]; exact (bind_of_ok a1 _).trans b1
      · rw [b3, a3, List.append_assoc]; rfl
      · rw [b4, a4]; rfl
    | side i a b =>
      obtain ⟨s1, a1, a2, a3, a4⟩ := exec_side hp hB h
      obtain ⟨s2, b1, b2, b3, b4⟩ := ih True s1 a2
      refine ⟨s2, ?_, weak (fun _ => .inl trivial) b2, ?_, ?_⟩
      · rw [List.foldlM_cons]; exact (bind_of_ok a1 _).trans b1
      · rw [b3, a3]; rfl
      · rw [b4, a4, List.append_assoc]; rfl

end

end Nissa.Hit
