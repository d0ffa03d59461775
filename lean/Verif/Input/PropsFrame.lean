import Verif.Input.PropsOrder
set_option linter.all false
namespace Nissa.Scan

/-! C89: a setting changes its own parameter of the block being written, and nothing else. -/

/-- Blocks of parameters of a run, with the number of the theory, quark or measurement they belong to
(specification). -/
inductive Slot
  | geo | run | evol | quen | conf
  | theory (i : Nat) | topo (i : Nat) | topoStout (i : Nat) | stout (i : Nat) | em (i : Nat)
  | quark (i j : Nat)
  | meson (i : Nat) | zumba (i : Nat) | elle (i : Nat) | luppoli (i : Nat)
  | gm (g : GM) (i : Nat) | smooth (g : GM) (i : Nat) | method (g : GM) (i : Nat) (b : Blk)
deriving DecidableEq

/-- Parameters of a smoothing method. -/
def methodOf : Blk → Smooth → Option Asg
  | .cool, s => some s.cool
  | .stout, s => some s.stout
  | .wflow, s => some s.wflow
  | .ape, s => some s.ape
  | .hyp, s => some s.hyp
  | _, _ => none

/-- Parameters of a block of the run. -/
def Driver.get (d : Driver) : Slot → Option Asg
  | .geo => some d.geo
  | .run => some d.run
  | .evol => some d.evol
  | .quen => some d.quen
  | .conf => some d.conf
  | .theory i => d.theories[i]?.map Theory.own
  | .topo i => d.theories[i]?.map Theory.topo
  | .topoStout i => d.theories[i]?.map Theory.topoStout
  | .stout i => d.theories[i]?.map Theory.stout
  | .em i => d.theories[i]?.map Theory.em
  | .quark i j => d.theories[i]?.bind fun t => t.quarks[j]?.map Prod.snd
  | .meson i => d.mesons[i]?
  | .zumba i => d.zumbas[i]?
  | .elle i => d.elles[i]?
  | .luppoli i => d.luppolis[i]?
  | .gm g i => (gms g d)[i]?.map GMeas.own
  | .smooth g i => (gms g d)[i]?.map fun m => m.smooth.own
  | .method g i b => (gms g d)[i]?.bind fun m => methodOf b m.smooth

/-- Block being written: the last one that was opened. -/
def Driver.last (d : Driver) : Ctx → Option Slot
  | .global => none
  | .geo => some .geo
  | .run => some .run
  | .evol => some .evol
  | .quen => some .quen
  | .conf => some .conf
  | .theory => some (.theory (d.theories.length - 1))
  | .topo => some (.topo (d.theories.length - 1))
  | .topoStout => some (.topoStout (d.theories.length - 1))
  | .stout => some (.stout (d.theories.length - 1))
  | .em => some (.em (d.theories.length - 1))
  | .quark => some (.quark (d.theories.length - 1)
      ((d.theories.getLast?.map fun t => t.quarks.length).getD 0 - 1))
  | .meson => some (.meson (d.mesons.length - 1))
  | .zumba => some (.zumba (d.zumbas.length - 1))
  | .elle => some (.elle (d.elles.length - 1))
  | .luppoli => some (.luppoli (d.luppolis.length - 1))
  | .gm g => some (.gm g ((gms g d).length - 1))
  | .smooth g => some (.smooth g ((gms g d).length - 1))
  | .sub g k => some (.method g ((gms g d).length - 1) (subBlk k))

theorem modLast_get {α : Type} (f : α → α) (l : List α) (i : Nat) :
    (modLast f l)[i]? = if i = l.length - 1 then l[i]?.map f else l[i]? := by
  induction l generalizing i with
  | nil => simp [modLast]
  | cons a l ih =>
    cases l with
    | nil => cases i <;> simp [modLast]
    | cons b l =>
      simp only [modLast]
      cases i with
      | zero => simp
      | succ i =>
        rw [List.getElem?_cons_succ, List.getElem?_cons_succ, ih]
        simp

theorem gms_modGm (g g' : GM) (f : GMeas → GMeas) (d : Driver) :
    gms g' (modGm g f d) = if g' = g then modLast f (gms g d) else gms g' d := by
  cases g <;> cases g' <;> rfl

theorem th_get {β : Type} (F : Theory → Option β) (f : Theory → Theory) (l : List Theory) (i : Nat)
    (h : ∀ t, i = l.length - 1 → l[i]? = some t → F (f t) = F t) :
    ((modLast f l)[i]?).bind F = (l[i]?).bind F := by
  rw [modLast_get]
  split
  · rename_i hi
    cases hl : l[i]? with
    | none => rfl
    | some t => simp [h t hi hl]
  · rfl

theorem last_get {α : Type} {l : List α} {t : α} (h : l[l.length - 1]? = some t) : l.getLast? = some t := by
  rw [List.getLast?_eq_getElem?]; exact h

theorem methodOf_modSub {k : Kw} {f : Asg → Asg} {s : Smooth} (b : Blk) :
    methodOf b (modSub k f s) = if b = subBlk k then (methodOf b s).map f else methodOf b s := by
  unfold modSub
  have : subBlk k = .stout ∨ subBlk k = .wflow ∨ subBlk k = .ape ∨ subBlk k = .hyp ∨ subBlk k = .cool := by
    unfold subBlk; split <;> simp
  rcases this with h | h | h | h | h <;> rw [h] <;> cases b <;> rfl

theorem get_modGm {d : Driver} (g : GM) (F : GMeas → GMeas) (s' : Slot)
    (h : ∀ i, s' ≠ .gm g i ∧ s' ≠ .smooth g i ∧ ∀ b, s' ≠ .method g i b) :
    (modGm g F d).get s' = d.get s' := by
  cases s' with
  | gm g' i =>
    have hg : g' ≠ g := by rintro rfl; exact (h i).1 rfl
    simp only [Driver.get, gms_modGm, if_neg hg]
  | smooth g' i =>
    have hg : g' ≠ g := by rintro rfl; exact (h i).2.1 rfl
    simp only [Driver.get, gms_modGm, if_neg hg]
  | method g' i b =>
    have hg : g' ≠ g := by rintro rfl; exact (h i).2.2 b rfl
    simp only [Driver.get, gms_modGm, if_neg hg]
  | _ => cases g <;> rfl

theorem get_modGm_gm {d : Driver} (g : GM) (F : GMeas → GMeas) (i : Nat) {β : Type} (G : GMeas → Option β) :
    ((gms g (modGm g F d))[i]?).bind G =
      if i = (gms g d).length - 1 then ((gms g d)[i]?).bind fun m => G (F m) else ((gms g d)[i]?).bind G := by
  rw [gms_modGm, if_pos rfl, modLast_get]
  split
  · cases (gms g d)[i]? <;> rfl
  · rfl

theorem mapl {α β : Type} (g : α → β) (x : Option α) : x.map g = x.bind fun a => some (g a) := by
  cases x <;> rfl

/-- Effect of a change of a gauge measurement. -/
theorem get_gm {d : Driver} {g : GM} {F : GMeas → GMeas} {f : Asg → Asg} {s : Slot}
    (hs : (∃ i, s = .gm g i) ∨ (∃ i, s = .smooth g i) ∨ ∃ i b, s = .method g i b)
    (h1 : ∀ i, (if Slot.gm g i = s then fun m => f (GMeas.own m) else GMeas.own) =
      if i = (gms g d).length - 1 then (fun m => (F m).own) else GMeas.own)
    (h2 : ∀ i, (if Slot.smooth g i = s then fun m : GMeas => f m.smooth.own else fun m => m.smooth.own) =
      if i = (gms g d).length - 1 then (fun m => (F m).smooth.own) else fun m => m.smooth.own)
    (h3 : ∀ i b, (if Slot.method g i b = s then fun m : GMeas => (methodOf b m.smooth).map f else
        fun m => methodOf b m.smooth) =
      if i = (gms g d).length - 1 then (fun m => methodOf b (F m).smooth) else fun m => methodOf b m.smooth)
    (s' : Slot) :
    (modGm g F d).get s' = if s' = s then (d.get s').map f else d.get s' := by
  by_cases hx : (∃ i, s' = .gm g i) ∨ (∃ i, s' = .smooth g i) ∨ ∃ i b, s' = .method g i b
  · rcases hx with ⟨i, rfl⟩ | ⟨i, rfl⟩ | ⟨i, b, rfl⟩
    · simp only [Driver.get, mapl, get_modGm_gm]
      have := h1 i
      split
      · rename_i hi
        rw [if_pos hi] at this
        cases hl : (gms g d)[i]? with
        | none => simp
        | some m =>
          have hm := congrFun this m
          split <;> rename_i hc <;> simp [hc] at hm ⊢ <;> exact hm.symm
      · rename_i hi
        rw [if_neg hi] at this
        cases hl : (gms g d)[i]? with
        | none => simp
        | some m =>
          have hm := congrFun this m
          split <;> rename_i hc <;> simp [hc] at hm ⊢
          exact hm.symm
    · simp only [Driver.get, mapl, get_modGm_gm]
      have := h2 i
      split
      · rename_i hi
        rw [if_pos hi] at this
        cases hl : (gms g d)[i]? with
        | none => simp
        | some m =>
          have hm := congrFun this m
          split <;> rename_i hc <;> simp [hc] at hm ⊢ <;> exact hm.symm
      · rename_i hi
        rw [if_neg hi] at this
        cases hl : (gms g d)[i]? with
        | none => simp
        | some m =>
          have hm := congrFun this m
          split <;> rename_i hc <;> simp [hc] at hm ⊢
          exact hm.symm
    · simp only [Driver.get, get_modGm_gm]
      have := h3 i b
      split
      · rename_i hi
        rw [if_pos hi] at this
        cases hl : (gms g d)[i]? with
        | none => simp
        | some m =>
          have hm := congrFun this m
          split <;> rename_i hc <;> simp [hc] at hm ⊢ <;> exact hm.symm
      · rename_i hi
        rw [if_neg hi] at this
        cases hl : (gms g d)[i]? with
        | none => simp
        | some m =>
          have hm := congrFun this m
          split <;> rename_i hc <;> simp [hc] at hm ⊢
          exact hm.symm
  · rw [get_modGm g F s' (fun i => ⟨fun h => hx (Or.inl ⟨i, h⟩), fun h => hx (Or.inr (Or.inl ⟨i, h⟩)),
      fun b h => hx (Or.inr (Or.inr ⟨i, b, h⟩))⟩)]
    rw [if_neg (by rintro rfl; exact hx hs)]

/-- Effect of a change of the block being written on all the blocks. -/
theorem get_write {d : Driver} {c : Ctx} {f : Asg → Asg} {s : Slot} (hs : d.last c = some s) (s' : Slot) :
    (write c f d).get s' = if s' = s then (d.get s').map f else d.get s' := by
  by_cases hg : ∃ g, c = .gm g
  · obtain ⟨g, rfl⟩ := hg
    injection hs with hs; subst hs
    refine get_gm (f := f) (Or.inl ⟨_, rfl⟩) ?_ ?_ ?_ s'
    · intro i; simp only [Slot.gm.injEq, true_and]
    · intro i; simp
    · intro i b; simp
  by_cases hg2 : ∃ g, c = .smooth g
  · obtain ⟨g, rfl⟩ := hg2
    injection hs with hs; subst hs
    refine get_gm (f := f) (Or.inr (Or.inl ⟨_, rfl⟩)) ?_ ?_ ?_ s'
    · intro i; simp
    · intro i; simp only [Slot.smooth.injEq, true_and]
    · intro i b
      have : ∀ (m : GMeas) x, methodOf b { m.smooth with own := x } = methodOf b m.smooth := by
        intro m x; cases b <;> rfl
      simp [this]
  by_cases hg3 : ∃ g k, c = .sub g k
  · obtain ⟨g, k, rfl⟩ := hg3
    injection hs with hs; subst hs
    refine get_gm (f := f) (Or.inr (Or.inr ⟨_, _, rfl⟩)) ?_ ?_ ?_ s'
    · intro i; simp
    · intro i
      have : ∀ s : Smooth, (modSub k f s).own = s.own := by intro s; unfold modSub; split <;> rfl
      simp [this]
    · intro i b
      simp only [methodOf_modSub, Slot.method.injEq, true_and]
      by_cases hi : i = (gms g d).length - 1
      · by_cases hb : b = subBlk k
        · rw [if_pos ⟨hi, hb⟩, if_pos hi]; simp only [if_pos hb]
        · rw [if_neg (fun h => hb h.2), if_pos hi]; simp only [if_neg hb]
      · rw [if_neg (fun h => hi h.1), if_neg hi]
  by_cases hq : c = .quark ∧ ∃ i j, s' = .quark i j
  · obtain ⟨rfl, i, j, rfl⟩ := hq
    injection hs with hs; subst hs
    simp only [write, Driver.get, modTh, modLast_get, Slot.quark.injEq]
    by_cases hi : i = d.theories.length - 1
    · subst hi
      simp only [if_true, true_and]
      cases hl : d.theories[d.theories.length - 1]? with
      | none => simp
      | some t =>
        rw [last_get hl]
        simp only [Option.map_some, Option.bind_some, Option.getD_some, modLast_get]
        split <;> (cases t.quarks[j]? <;> rfl)
    · simp only [if_neg hi, hi, false_and, if_false]
  cases c <;> simp only [Driver.last, Option.some.injEq, reduceCtorEq] at hs <;> (try subst hs) <;>
    (try (exfalso; first | exact hg ⟨_, rfl⟩ | exact hg2 ⟨_, rfl⟩ | exact hg3 ⟨_, _, rfl⟩)) <;>
    cases s' <;> (try (exfalso; exact hq ⟨rfl, _, _, rfl⟩)) <;> clear hg hg2 hg3 hq <;>
    simp only [write, Driver.get, modTh, reduceCtorEq, if_false, if_true, Slot.theory.injEq,
      Slot.topo.injEq, Slot.topoStout.injEq, Slot.stout.injEq, Slot.em.injEq, Slot.quark.injEq,
      Slot.meson.injEq, Slot.zumba.injEq, Slot.elle.injEq, Slot.luppoli.injEq, modLast_get, Option.map_some]
  all_goals first
    | rfl
    | (rename_i i; generalize d.theories[i]? = o
       by_cases hi : i = d.theories.length - 1 <;>
         first | (simp only [if_pos hi]; cases o <;> rfl) | (simp only [if_neg hi]))
    | (rename_i i j; generalize d.theories[i]? = o
       by_cases hi : i = d.theories.length - 1 <;>
         first | (simp only [if_pos hi]; cases o <;> rfl) | (simp only [if_neg hi]))

/-! The block being written exists. -/

/-- The block being written exists. -/
def Opened (d : Driver) : Ctx → Prop
  | .theory | .topo | .topoStout | .stout | .em => d.theories ≠ []
  | .quark => ∃ t, d.theories.getLast? = some t ∧ t.quarks ≠ []
  | .meson => d.mesons ≠ []
  | .zumba => d.zumbas ≠ []
  | .elle => d.elles ≠ []
  | .luppoli => d.luppolis ≠ []
  | .gm g | .smooth g | .sub g _ => gms g d ≠ []
  | _ => True

theorem modLast_length {α : Type} (f : α → α) (l : List α) : (modLast f l).length = l.length := by
  induction l with
  | nil => rfl
  | cons a l ih =>
    cases l with
    | nil => rfl
    | cons b l => simp only [modLast, List.length_cons] at ih ⊢; rw [ih]

theorem modLast_ne {α : Type} {f : α → α} {l : List α} (h : l ≠ []) : modLast f l ≠ [] := by
  rw [← List.length_pos_iff] at h ⊢; rw [modLast_length]; exact h

theorem gms_ne {d : Driver} {g : GM} {f : GMeas → GMeas} (h : gms g d ≠ []) : gms g (modGm g f d) ≠ [] := by
  rw [gms_modGm, if_pos rfl]; exact modLast_ne h

theorem opened_write {d : Driver} {c : Ctx} {f : Asg → Asg} (h : Opened d c) : Opened (write c f d) c := by
  cases c with
  | theory => exact modLast_ne h
  | topo => exact modLast_ne h
  | topoStout => exact modLast_ne h
  | stout => exact modLast_ne h
  | em => exact modLast_ne h
  | quark =>
    obtain ⟨t, h1, h2⟩ := h
    refine ⟨{ t with quarks := modLast (fun q => (q.1, f q.2)) t.quarks }, ?_, modLast_ne h2⟩
    simp only [write, modTh, modLast_getLast, h1, Option.map_some]
  | meson => exact modLast_ne h
  | zumba => exact modLast_ne h
  | elle => exact modLast_ne h
  | luppoli => exact modLast_ne h
  | gm g => exact gms_ne h
  | smooth g => exact gms_ne h
  | sub g k => exact gms_ne h
  | _ => trivial

theorem opened_header {d d' : Driver} {c c' : Ctx} {k : Kw} (h : Opened d c)
    (hh : header c k d = some (d', c')) : Opened d' c' := by
  unfold header at hh
  split at hh <;> simp only [Option.some.injEq, Prod.mk.injEq, reduceCtorEq] at hh <;>
    obtain ⟨rfl, rfl⟩ := hh <;> first
      | exact trivial
      | exact modLast_ne h
      | (simp [Opened]; done)
      | (simp [Opened, gms]; done)

theorem opened_special {e : Env} {d d' : Driver} {c c' : Ctx} {k : Kw} {t : Tok} (h : Opened d c)
    (hh : special e c k t d = some (d', c')) : Opened d' c' := by
  unfold special at hh
  split at hh
  · split at hh
    · simp only [Option.some.injEq, Prod.mk.injEq] at hh
      obtain ⟨rfl, rfl⟩ := hh; trivial
    · cases hh
  · simp only [Option.some.injEq, Prod.mk.injEq] at hh
    obtain ⟨rfl, rfl⟩ := hh; trivial
  · split at hh
    · simp only [Option.some.injEq, Prod.mk.injEq] at hh
      obtain ⟨rfl, rfl⟩ := hh; exact modLast_ne h
    · cases hh
  · split at hh
    · simp only [Option.some.injEq, Prod.mk.injEq] at hh
      obtain ⟨rfl, rfl⟩ := hh
      obtain ⟨t, ht⟩ : ∃ t, d.theories.getLast? = some t := by
        cases hl : d.theories.getLast? with
        | none => exact absurd (List.getLast?_eq_none_iff.1 hl) h
        | some t => exact ⟨t, rfl⟩
      rename_i s0 _
      refine ⟨{ t with quarks := t.quarks ++ [(s0, dflt .quark)] }, ?_, by simp⟩
      simp only [modTh, modLast_getLast, ht, Option.map_some]
    · cases hh
  · split at hh
    · simp only [Option.some.injEq, Prod.mk.injEq] at hh
      obtain ⟨rfl, rfl⟩ := hh; exact gms_ne h
    · cases hh
  · cases hh

theorem opened_chain {d : Driver} {c c' : Ctx} (h : Opened d c) (hc : c' ∈ chain c) : Opened d c' := by
  have hq : ∀ t, d.theories.getLast? = some t → d.theories ≠ [] := by
    intro t ht h0; rw [h0] at ht; cases ht
  cases c <;> simp only [chain, List.mem_cons, List.not_mem_nil, or_false] at hc <;>
    (try rcases hc with rfl | rfl | rfl | rfl) <;> (try rcases hc with rfl | rfl | rfl) <;>
    (try rcases hc with rfl | rfl) <;> first
      | exact h
      | exact trivial
      | (obtain ⟨t, h1, h2⟩ := h; exact hq t h1)
      | (subst hc; exact trivial)

/-- The open block and the one waiting for a value exist. -/
structure Inv2 (s : St) : Prop where
  ctx : Opened s.drv s.ctx
  key : ∀ c k, s.pend = .key c k → Opened s.drv c
  val : ∀ c k, s.pend = .val c k → Opened s.drv c

theorem inv2_idle {d : Driver} {c : Ctx} (h : Opened d c) : Inv2 ⟨d, c, .idle⟩ :=
  ⟨h, fun _ _ h => (by cases h), fun _ _ h => (by cases h)⟩

theorem inv2_stepVal {e : Env} {s s' : St} {c : Ctx} {k : Kw} {t : Tok} (hc : Opened s.drv c)
    (hs : stepVal e s c k t = some s') : Inv2 s' := by
  unfold stepVal at hs
  split at hs
  · split at hs
    · rename_i d c' hsp
      injection hs with hs; subst hs
      exact inv2_idle (opened_special hc hsp)
    · cases hs
  · cases hb : blk c with
    | none => rw [hb] at hs; cases hs
    | some b =>
      rw [hb] at hs; dsimp only at hs
      cases hty : tyOf b k with
      | none => rw [hty] at hs; cases hs
      | some ty =>
        rw [hty] at hs; dsimp only at hs
        cases ha : accept e ty t with
        | none => rw [ha] at hs; cases hs
        | some v =>
          rw [ha] at hs; dsimp only at hs
          injection hs with hs; subst hs
          exact inv2_idle (opened_write hc)

theorem inv2_step {e : Env} {s s' : St} {t : Tok} (h : Inv2 s) (hs : stepAll e s t = some s') :
    Inv2 s' := by
  unfold stepAll at hs
  split at hs
  · split at hs
    · cases hs
    · split at hs
      · cases hs
      · injection hs with hs; subst hs
        exact inv2_idle trivial
  · unfold step at hs
    split at hs
    · rename_i k hp
      unfold stepKw at hs
      split at hs
      · cases hs
      · rename_i c hr
        have hc : Opened s.drv c := opened_chain h.ctx (List.mem_of_find?_eq_some hr)
        split at hs
        · injection hs with hs; subst hs
          exact ⟨trivial, fun _ _ h => (by cases h), fun _ _ h => (by cases h)⟩
        · split at hs
          · rename_i d c' hh
            injection hs with hs; subst hs
            exact inv2_idle (opened_header hc hh)
          · injection hs with hs; subst hs
            refine ⟨h.ctx, ?_, fun _ _ h => (by cases h)⟩
            intro c1 k1 h1
            injection h1 with h1 h2; subst h1; exact hc
    · rename_i c k hp _
      have hc := h.key _ _ hp
      split at hs
      · exact inv2_stepVal hc hs
      · split at hs
        · injection hs with hs; subst hs
          refine ⟨h.ctx, fun _ _ h => (by cases h), ?_⟩
          intro c1 k1 h1
          injection h1 with h1 h2; subst h1; exact hc
        · cases hs
    · rename_i c k hp _
      exact inv2_stepVal (h.val _ _ hp) hs
    · injection hs with hs; subst hs
      refine ⟨h.ctx, ?_, fun _ _ h => (by cases h)⟩
      intro c1 k1 h1
      injection h1 with h1 h2; subst h1; exact trivial
    · cases hs

theorem inv2_scanFrom {e : Env} {s s' : St} {l : List Tok} (h : Inv2 s) (hs : scanFrom e s l = some s') :
    Inv2 s' := by
  induction l generalizing s with
  | nil => injection hs with hs; subst hs; exact h
  | cons t l ih =>
    rw [scanFrom] at hs
    cases ht : stepAll e s t with
    | none => rw [ht] at hs; cases hs
    | some s1 => rw [ht] at hs; exact ih (inv2_step h ht) hs

theorem ne_get {α : Type} {l : List α} (h : l ≠ []) : ∃ x, l[l.length - 1]? = some x := by
  have : l.length - 1 < l.length := by have := List.length_pos_iff.2 h; omega
  exact ⟨l[l.length - 1], List.getElem?_eq_getElem this⟩

theorem opened_get {d : Driver} {c : Ctx} {b : Blk} (h : Opened d c) (hb : blk c = some b) :
    ∃ s a, d.last c = some s ∧ d.get s = some a := by
  cases c with
  | global => cases hb
  | quark =>
    obtain ⟨t, h1, h2⟩ := h
    obtain ⟨q, hq⟩ := ne_get h2
    refine ⟨_, q.2, rfl, ?_⟩
    rw [List.getLast?_eq_getElem?] at h1
    simp only [Driver.get, List.getLast?_eq_getElem?, h1, Option.map_some, Option.getD_some, Option.bind_some, hq]
  | sub g k =>
    obtain ⟨m, hm⟩ := ne_get h
    have : ∃ a, methodOf (subBlk k) m.smooth = some a := by
      unfold subBlk; split <;> exact ⟨_, rfl⟩
    obtain ⟨a, ha⟩ := this
    exact ⟨_, a, rfl, by simp only [Driver.get, hm, Option.bind_some, ha]⟩
  | geo => exact ⟨_, _, rfl, rfl⟩
  | run => exact ⟨_, _, rfl, rfl⟩
  | evol => exact ⟨_, _, rfl, rfl⟩
  | quen => exact ⟨_, _, rfl, rfl⟩
  | conf => exact ⟨_, _, rfl, rfl⟩
  | theory =>
    obtain ⟨m, hm⟩ := ne_get h
    exact ⟨_, m.own, rfl, by simp only [Driver.get, hm, Option.map_some]⟩
  | topo =>
    obtain ⟨m, hm⟩ := ne_get h
    exact ⟨_, m.topo, rfl, by simp only [Driver.get, hm, Option.map_some]⟩
  | topoStout =>
    obtain ⟨m, hm⟩ := ne_get h
    exact ⟨_, m.topoStout, rfl, by simp only [Driver.get, hm, Option.map_some]⟩
  | stout =>
    obtain ⟨m, hm⟩ := ne_get h
    exact ⟨_, m.stout, rfl, by simp only [Driver.get, hm, Option.map_some]⟩
  | em =>
    obtain ⟨m, hm⟩ := ne_get h
    exact ⟨_, m.em, rfl, by simp only [Driver.get, hm, Option.map_some]⟩
  | gm g =>
    obtain ⟨m, hm⟩ := ne_get h
    exact ⟨_, m.own, rfl, by simp only [Driver.get, hm, Option.map_some]⟩
  | smooth g =>
    obtain ⟨m, hm⟩ := ne_get h
    exact ⟨_, m.smooth.own, rfl, by simp only [Driver.get, hm, Option.map_some]⟩
  | _ =>
    obtain ⟨m, hm⟩ := ne_get h
    exact ⟨_, m, rfl, hm⟩

theorem write_rest (c : Ctx) (f : Asg → Asg) (d : Driver) :
    (write c f d).tag = d.tag ∧ (write c f d).analysis = d.analysis ∧ (write c f d).force = d.force ∧
    (write c f d).confList = d.confList := by
  cases c <;> first
    | exact ⟨rfl, rfl, rfl, rfl⟩
    | (rename_i g; cases g <;> exact ⟨rfl, rfl, rfl, rfl⟩)
    | (rename_i g k; cases g <;> exact ⟨rfl, rfl, rfl, rfl⟩)

/-- The blocks open inside the one of a keyword do not count. -/
theorem scan_from_inside {e : Env} {d : Driver} {c0 c : Ctx} {b : Blk} {k : Kw} {ty : Ty} {t : Tok} {v : Val}
    (hr : resolve c0 k = some c) (hb : blk c = some b) (ht : tyOf b k = some ty) (hm : k ≠ .method)
    (ha : accept e ty t = some v) :
    scanFrom e ⟨d, c0, .idle⟩ [.kw k, .eq, t] = some ⟨write c (assign k v) d, c, .idle⟩ := by
  have hi : k ∉ inner c := fun hk => by rw [inner_not_ty c b k hb hk] at ht; cases ht
  have hg : ¬ (c = .global ∧ k = .analysis) := by rintro ⟨rfl, -⟩; cases hb
  have h1 : stepAll e ⟨d, c0, .idle⟩ (.kw k) = some ⟨d, c0, .key c k⟩ := by
    simp only [stepAll, step, stepKw, hr, hg, if_false, header_none hi]
  have h2 : stepAll e ⟨d, c0, .key c k⟩ .eq = some ⟨d, c0, .val c k⟩ := by
    simp only [stepAll, step, if_neg hm, if_true]
  have h3 : stepAll e ⟨d, c0, .val c k⟩ t = some ⟨write c (assign k v) d, c, .idle⟩ := by
    have hnc : c ≠ .global := by rintro rfl; cases hb
    unfold stepAll
    split
    · rename_i heq; simp only [Pend.val.injEq] at heq; exact absurd heq.1 hnc
    · simp only [step, stepVal, if_neg hi, hb, ht, ha]
  simp only [scanFrom, h1, h2, h3]

/-- C89: after any accepted beginning of the input, a setting gives its value to its parameter in the
last block opened of those that have it, and changes no other parameter of any block. -/
theorem C89_setting_sets_only_its_parameter (e : Env) (pre : List Tok) (d : Driver) (c0 c : Ctx) (b : Blk)
    (hpre : scanFrom e ⟨newDriver, .global, .idle⟩ pre = some ⟨d, c0, .idle⟩) (k : Kw)
    (hr : resolve c0 k = some c) (hb : blk c = some b) (ty : Ty) (ht : tyOf b k = some ty)
    (hm : k ≠ .method) (hL : k ≠ .L) (t : Tok) (v : Val) (ha : accept e ty t = some v) :
    ∃ d' s, scan e (pre ++ [.kw k, .eq, t]) = some d' ∧ d.last c = some s ∧
      (d'.get s).map (fun a => a k) = some v ∧
      (∀ s' k', (s', k') ≠ (s, k) → (d'.get s').map (fun a => a k') = (d.get s').map fun a => a k') ∧
      d'.tag = d.tag ∧ d'.analysis = d.analysis ∧ d'.force = d.force ∧ d'.confList = d.confList := by
  have hinv := inv2_scanFrom (inv2_idle (c := .global) trivial) hpre
  have ho : Opened d c := opened_chain hinv.ctx (List.mem_of_find?_eq_some hr)
  obtain ⟨s, a, hs, hga⟩ := opened_get ho hb
  refine ⟨write c (assign k v) d, s, ?_, hs, ?_, ?_, write_rest c _ d⟩
  · unfold scan
    rw [scanFrom_append, hpre, Option.bind_some, scan_from_inside hr hb ht hm ha]
    rfl
  · rw [get_write hs, if_pos rfl, hga]
    simp [assign, hL]
  · intro s' k' hne
    rw [get_write hs]
    split
    · rename_i hss
      have hk : k' ≠ k := fun h => hne (by rw [hss, h])
      cases d.get s' with
      | none => rfl
      | some x => simp [assign, hL, hk]
    · rfl

/-- The values written are the ones used: integers, reals and texts. -/
theorem C89_values_are_kept (e : Env) (n : Int) (x : ℚ) (w : String) (hw : noQuote w = true) :
    accept e .int (.val (.int n)) = some (.int n) ∧
    accept e .real (.val (.real x)) = some (.real x) ∧
    accept e .real (.val (.int n)) = some (.real n) ∧
    accept e .text (.val (.text w)) = some (.text w) ∧
    accept e .trunc (.val (.int n)) = some (.int n) ∧
    (∃ m : Int, accept e .trunc (.val (.real x)) = some (.int m) ∧ |(m : ℚ)| ≤ |x| ∧ |x - m| < 1) ∧
    (∃ m : Int, accept e .flag (.val (.int n)) = some (.int m) ∧ (m = 0 ↔ n = 0) ∧ (m = 0 ∨ m = 1)) := by
  refine ⟨rfl, rfl, rfl, by simp [accept, hw], rfl, ⟨_, rfl, ?_⟩, ⟨_, rfl, ?_⟩⟩
  · split
    · rename_i h
      have h1 := Int.floor_le x
      have h2 := Int.lt_floor_add_one x
      have h3 : (0 : ℚ) ≤ ⌊x⌋ := by exact_mod_cast Int.floor_nonneg.2 h
      rw [abs_of_nonneg h, abs_of_nonneg h3, abs_lt]
      exact ⟨h1, by linarith, by linarith⟩
    · rename_i h
      push Not at h
      have h1 := Int.le_ceil x
      have h2 := Int.ceil_lt_add_one x
      have h3 : (⌈x⌉ : ℚ) ≤ 0 := by
        have : ⌈x⌉ ≤ 0 := Int.ceil_le.2 (by simpa using h.le)
        exact_mod_cast this
      rw [abs_of_neg h, abs_of_nonpos h3, abs_lt]
      exact ⟨by linarith, by linarith, by linarith⟩
  · split
    · rename_i h; simp [h]
    · rename_i h; simp [h]

/-- The hypotheses of C89: with the block of a quark open, `Beta` goes to its theory. -/
example : ∃ d, scanFrom anyFile ⟨newDriver, .global, .idle⟩
    [.kw .theory, .kw .theory, .kw .quark, .eq, .val (.text "up")] = some ⟨d, .quark, .idle⟩ ∧
    resolve .quark .beta = some .theory ∧ tyOf .theory .beta = some .real ∧
    d.last .theory = some (.theory 1) :=
  ⟨_, rfl, rfl, rfl, rfl⟩
end Nissa.Scan
