/-
Model of the validity flags of halo and edges of a field, and of the reference counting which drives them:
/repo/src/base/field.hpp:371-403 (updateHalo, updateEdges), 540-614 (FieldRef), 1017-1127 (constructors, invalidate), 1287-1370
(start/finish communications), 1391-1440, 1466-1486, 1511-1517 (assignments).
A field is seen on all ranks at once: `D` is the content of its local sites, `H` of its halos, `E` of its edges; `exch`/`exchE` are
what halo and edges should contain (that the communication routines produce it is C05/C06).
-/
import Mathlib.Logic.Function.Basic
set_option linter.all false

namespace Nissa.HaloState

/-- Members of `Field` which matter here: field.hpp:676 nRef, 691 haloEdgesPresence (0,1,2), 707 _haloIsValid, 715 _edgesAreValid,
and the data, split in sites, halo and edges -/
structure FState (D H E : Type) where
  presence : Nat
  data : D
  halo : H
  edges : E
  hv : Bool
  ev : Bool
  nRef : Nat

/-- all the fields of the program, and the communication buffer shared by all of them (`recvBuf`), -/
structure World (D H E : Type) where
  fld : Nat → FState D H E
  buf : Option H

variable {D H E : Type}

def World.set (w : World D H E) (f : Nat) (s : FState D H E) : World D H E := { w with fld := Function.update w.fld f s }

/-- invalidateHalo, field.hpp:1123-1128 (calls invalidateEdges 1117-1120) -/
def invalidateHalo (s : FState D H E) : FState D H E := { s with hv := false, ev := false }

/-- A capture: field and whether through getWritable (true) or getReadable (false) -/
abbrev Cap := Nat × Bool

/-- FieldRef::setFrom, field.hpp:541-550 -/
def refNew (w : World D H E) (c : Cap) : World D H E := w.set c.1 { w.fld c.1 with nRef := (w.fld c.1).nRef + 1 }

/-- FieldRef::unset, field.hpp:597-611 -/
def refDrop (c : Cap) (w : World D H E) : World D H E :=
  let s := { w.fld c.1 with nRef := (w.fld c.1).nRef - 1 }
  w.set c.1 (if s.nRef = 0 ∧ c.2 = true then invalidateHalo s else s)

/-- the loop body: it may read everything and writes the local sites of the fields captured as writable -/
def writeAll (caps : List Cap) (body : World D H E → Nat → D) (w : World D H E) : World D H E :=
  { w with fld := fun f => if (f, true) ∈ caps then { w.fld f with data := body w f } else w.fld f }

/-- PAR(..., CAPTURE(caps), ...), threads.hpp:367-374: the references are created in the order of the captures and destroyed in the
opposite order -/
def kernel (caps : List Cap) (body : World D H E → Nat → D) (w : World D H E) : World D H E :=
  caps.foldr refDrop (writeAll caps body (caps.foldl refNew w))

/-- startCommunicatingHalo, field.hpp:1287-1305: the surface is copied in the buffer (through a readable reference) and sent -/
def startHalo (exch : D → H) (f : Nat) (w : World D H E) : World D H E :=
  let w' := kernel [(f, false)] (fun w f => (w.fld f).data) w
  { w' with buf := some (exch (w.fld f).data) }

/-- finishCommunicatingHalo, field.hpp:1307-1319; crash if the halo is not allocated (1321-1325) -/
def finishHalo (f : Nat) (w : World D H E) : Option (World D H E) :=
  match w.buf with
  | none => none
  | some h => if (w.fld f).presence ≥ 1 then some (w.set f { w.fld f with halo := h, hv := true }) else none

/-- FieldFeat::updateHalo, field.hpp:371-384 -/
def updateHalo (exch : D → H) (f : Nat) (force : Bool) (w : World D H E) : Option (World D H E) :=
  if force = true ∨ (w.fld f).hv = false then finishHalo f (startHalo exch f w) else some w

/-- startCommunicatingEdges + finishCommunicatingEdges, field.hpp:1331-1370: note that the flag set is the one of the halo -/
def commEdges (exchE : D → E) (f : Nat) (w : World D H E) : Option (World D H E) :=
  let w' := kernel [(f, false)] (fun w f => (w.fld f).data) w
  if (w'.fld f).presence ≥ 2 then some (w'.set f { w'.fld f with edges := exchE (w'.fld f).data, hv := true }) else none

/-- FieldFeat::updateEdges, field.hpp:387-403 -/
def updateEdges (exch : D → H) (exchE : D → E) (f : Nat) (force : Bool) (w : World D H E) : Option (World D H E) :=
  (updateHalo exch f force w).bind (fun w => if force = true ∨ (w.fld f).ev = false then commEdges exchE f w else some w)

/-- Field::assign, field.hpp:1391-1410, and the guard of operator=, 1511-1517 -/
def assign (f g : Nat) (w : World D H E) : World D H E :=
  if f = g then w else kernel [(g, false), (f, true)] (fun w _ => (w.fld g).data) w

/-- operator= across memory spaces, field.hpp:1428-1449: raw copy of the whole allocation, flags untouched -/
def assignAcross (f g : Nat) (w : World D H E) : Option (World D H E) :=
  if (w.fld f).presence = (w.fld g).presence then
    some (w.set f { w.fld f with data := (w.fld g).data, halo := (w.fld g).halo, edges := (w.fld g).edges })
  else none

/-- constructor, field.hpp:1017-1029: the memory is not initialised -/
def construct (f : Nat) (presence : Nat) (d : D) (h : H) (e : E) (w : World D H E) : World D H E :=
  w.set f { presence := presence, data := d, halo := h, edges := e, hv := false, ev := false, nRef := 0 }

/-- Operations of a program. `async` is the usual pattern: start the communications of a field, run kernels, finish. -/
inductive Op (D H E : Type)
  | kernel (caps : List Cap) (body : World D H E → Nat → D)
  | updateHalo (f : Nat) (force : Bool)
  | updateEdges (f : Nat) (force : Bool)
  | invalidate (f : Nat)
  | assign (f g : Nat)
  | assignAcross (f g : Nat)
  | construct (f presence : Nat) (d : D) (h : H) (e : E)
  | async (f : Nat) (ks : List (List Cap × (World D H E → Nat → D)))
  | commEdges (f : Nat)

/-- Execution of an operation, `none` = the program crashes -/
def step (exch : D → H) (exchE : D → E) (w : World D H E) : Op D H E → Option (World D H E)
  | .kernel caps body => some (kernel caps body w)
  | .updateHalo f force => updateHalo exch f force w
  | .updateEdges f force => updateEdges exch exchE f force w
  | .invalidate f => some (w.set f (invalidateHalo (w.fld f)))
  | .assign f g => some (assign f g w)
  | .assignAcross f g => assignAcross f g w
  | .construct f p d h e => some (construct f p d h e w)
  | .async f ks => finishHalo f (ks.foldl (fun w k => kernel k.1 k.2 w) (startHalo exch f w))
  | .commEdges f => commEdges exchE f w

/-- a whole program -/
def run (exch : D → H) (exchE : D → E) (w : World D H E) : List (Op D H E) → Option (World D H E)
  | [] => some w
  | o :: os => (step exch exchE w o).bind (fun w => run exch exchE w os)

/-! ### Specification -/

/-- the first time a kernel captures a field that it also writes, it captures it as writable -/
def WriteFirst (caps : List Cap) : Prop := ∀ f, (f, true) ∈ caps → (caps.find? (fun c => c.1 == f)).map Prod.snd = some true

/-- Rules of usage under which the flags can be trusted -/
def Disciplined (w : World D H E) : Op D H E → Prop
  | .kernel caps _ => WriteFirst caps
  | .assignAcross f g => (w.fld f).hv = true → (w.fld g).hv = true
  | .async f ks => ∀ k ∈ ks, WriteFirst k.1 ∧ (f, true) ∉ k.1
  | .commEdges _ => False
  | _ => True

/-- all the operations of a run are disciplined in the state where they are executed -/
def DisciplinedRun (exch : D → H) (exchE : D → E) (w : World D H E) : List (Op D H E) → Prop
  | [] => True
  | o :: os => Disciplined w o ∧ ∀ w', step exch exchE w o = some w' → DisciplinedRun exch exchE w' os

/-- program start: no reference around, nothing marked as valid -/
def Fresh (w : World D H E) : Prop := ∀ f, (w.fld f).nRef = 0 ∧ (w.fld f).hv = false ∧ (w.fld f).ev = false

/-- What the flags promise -/
def Sound (exch : D → H) (w : World D H E) : Prop :=
  ∀ f, (w.fld f).nRef = 0 ∧ ((w.fld f).hv = true → (w.fld f).halo = exch (w.fld f).data) ∧ (w.fld f).ev = false

/-! ### Proofs -/

theorem refNew_fld (caps : List Cap) (w : World D H E) (f : Nat) :
    (caps.foldl refNew w).fld f = { w.fld f with nRef := (w.fld f).nRef + caps.countP (fun c => c.1 == f) } := by
  induction caps generalizing w with
  | nil => simp
  | cons c cs ih =>
    rw [List.foldl_cons, ih, List.countP_cons]
    unfold refNew World.set
    by_cases h : c.1 = f
    · subst h; simp; omega
    · simp [Function.update_of_ne (Ne.symm h), h]

theorem refNew_buf (caps : List Cap) (w : World D H E) : (caps.foldl refNew w).buf = w.buf := by
  induction caps generalizing w with
  | nil => rfl
  | cons c cs ih => rw [List.foldl_cons, ih]; rfl

theorem refDrop_buf (caps : List Cap) (w : World D H E) : (caps.foldr refDrop w).buf = w.buf := by
  induction caps with
  | nil => rfl
  | cons c cs ih => rw [List.foldr_cons]; simp [refDrop, World.set, ih]

theorem countP_pos_of_find {caps : List Cap} {f : Nat} {b : Bool} (h : (caps.find? (fun c => c.1 == f)).map Prod.snd = some b) :
    0 < caps.countP (fun c => c.1 == f) := by
  rw [List.countP_pos_iff]
  cases hf : caps.find? (fun c => c.1 == f) with
  | none => rw [hf] at h; simp at h
  | some c => exact ⟨c, List.mem_of_find?_eq_some hf, by simpa using List.find?_some hf⟩

/-- effect on a field of dropping all references of a kernel -/
theorem refDrop_fld (caps : List Cap) (w : World D H E) (f k : Nat) (hk : (w.fld f).nRef = k + caps.countP (fun c => c.1 == f)) :
    (caps.foldr refDrop w).fld f =
      if k = 0 ∧ (caps.find? (fun c => c.1 == f)).map Prod.snd = some true then { invalidateHalo (w.fld f) with nRef := k }
      else { w.fld f with nRef := k } := by
  induction caps generalizing k with
  | nil => simp at hk ⊢; rw [← hk]
  | cons c cs ih =>
    rw [List.foldr_cons]
    by_cases h : c.1 = f
    · have hc : (c :: cs).countP (fun c => c.1 == f) = cs.countP (fun c => c.1 == f) + 1 := by rw [List.countP_cons]; simp [h]
      have := ih (k + 1) (by omega)
      rw [if_neg (by omega)] at this
      have hfind : ((c :: cs).find? (fun c => c.1 == f)).map Prod.snd = some c.2 := by simp [h]
      rw [hfind]
      subst h
      generalize List.foldr refDrop w cs = W at this
      unfold refDrop World.set
      simp only [Function.update_self]
      rw [this]
      simp only [Nat.add_sub_cancel, Option.some.injEq]
      rfl
    · have hc : (c :: cs).countP (fun c => c.1 == f) = cs.countP (fun c => c.1 == f) := by rw [List.countP_cons]; simp [h]
      have hfind : (c :: cs).find? (fun c => c.1 == f) = cs.find? (fun c => c.1 == f) := by simp [h]
      rw [hfind, ← ih k (by omega)]
      generalize List.foldr refDrop w cs = W
      unfold refDrop World.set
      simp only [Function.update_of_ne (Ne.symm h)]

/-- effect of a kernel on each field -/
theorem kernel_fld (caps : List Cap) (body : World D H E → Nat → D) (w : World D H E) (f : Nat) :
    ∃ d, (kernel caps body w).fld f =
      { w.fld f with
        data := if (f, true) ∈ caps then d else (w.fld f).data
        hv := if (w.fld f).nRef = 0 ∧ (caps.find? (fun c => c.1 == f)).map Prod.snd = some true then false else (w.fld f).hv
        ev := if (w.fld f).nRef = 0 ∧ (caps.find? (fun c => c.1 == f)).map Prod.snd = some true then false else (w.fld f).ev } := by
  refine ⟨body (caps.foldl refNew w) f, ?_⟩
  unfold kernel
  have h0 := refNew_fld caps w f
  have h1 : ((writeAll caps body (caps.foldl refNew w)).fld f) =
      { w.fld f with nRef := (w.fld f).nRef + caps.countP (fun c => c.1 == f),
                     data := if (f, true) ∈ caps then body (caps.foldl refNew w) f else (w.fld f).data } := by
    unfold writeAll
    simp only
    split
    · rw [h0]
    · rw [h0]
  rw [refDrop_fld caps _ f (w.fld f).nRef (by rw [h1])]
  rw [h1]
  split <;> simp [invalidateHalo]

theorem kernel_buf (caps : List Cap) (body : World D H E → Nat → D) (w : World D H E) : (kernel caps body w).buf = w.buf := by
  unfold kernel; rw [refDrop_buf]; unfold writeAll; exact refNew_buf caps w

/-- a kernel which does not write a field leaves it as it is -/
theorem kernel_other {caps : List Cap} {body : World D H E → Nat → D} {w : World D H E} {f : Nat} (h : (f, true) ∉ caps) :
    (kernel caps body w).fld f = w.fld f := by
  obtain ⟨d, e⟩ := kernel_fld caps body w f
  have : (caps.find? (fun c => c.1 == f)).map Prod.snd ≠ some true := by
    intro hh
    cases hf : caps.find? (fun c => c.1 == f) with
    | none => rw [hf] at hh; simp at hh
    | some c =>
      rw [hf] at hh
      have hm := List.mem_of_find?_eq_some hf
      have hc := List.find?_some hf
      simp at hh hc
      exact h (by rw [← hc, ← hh]; exact hm)
  rw [e, if_neg h, if_neg (fun hh => this hh.2), if_neg (fun hh => this hh.2)]

theorem kernel_sound {exch : D → H} {w : World D H E} (hs : Sound exch w) {caps : List Cap} (hc : WriteFirst caps)
    (body : World D H E → Nat → D) : Sound exch (kernel caps body w) := by
  intro f
  obtain ⟨h1, h2, h3⟩ := hs f
  by_cases hw : (f, true) ∈ caps
  · obtain ⟨d, e⟩ := kernel_fld caps body w f
    rw [e]
    simp [h1, hc f hw]
  · rw [kernel_other hw]; exact hs f

theorem startHalo_fld (exch : D → H) (f : Nat) (w : World D H E) (g : Nat) : (startHalo exch f w).fld g = w.fld g := by
  exact kernel_other (caps := [(f, false)]) (body := fun w f => (w.fld f).data) (by simp)

theorem set_fld (w : World D H E) (f : Nat) (s : FState D H E) (g : Nat) : (w.set f s).fld g = if g = f then s else w.fld g := by
  unfold World.set
  by_cases h : g = f
  · subst h; simp
  · simp [h, Function.update_of_ne h]

theorem updateHalo_fld {exch : D → H} {f : Nat} {force : Bool} {w w' : World D H E} (h : updateHalo exch f force w = some w') (g : Nat) :
    w'.fld g = if g = f ∧ (force = true ∨ (w.fld f).hv = false) then { w.fld f with halo := exch (w.fld f).data, hv := true } else w.fld g := by
  unfold updateHalo at h
  split at h
  · rename_i hc
    unfold finishHalo at h
    have hb : (startHalo exch f w).buf = some (exch (w.fld f).data) := rfl
    rw [hb] at h
    simp only at h
    split at h
    · cases h
      rw [set_fld, startHalo_fld, startHalo_fld]
      by_cases hg : g = f
      · simp [hg, hc]
      · simp [hg]
    · exact absurd h (by simp)
  · rename_i hc
    cases h
    rw [if_neg (fun hh => hc hh.2)]

theorem commEdges_fld {exchE : D → E} {f : Nat} {w w' : World D H E} (h : commEdges exchE f w = some w') (g : Nat) :
    w'.fld g = if g = f then { w.fld f with edges := exchE (w.fld f).data, hv := true } else w.fld g := by
  unfold commEdges at h
  have hk : ∀ g, (kernel [(f, false)] (fun w f => (w.fld f).data) w).fld g = w.fld g := fun g => kernel_other (by simp)
  simp only [hk] at h
  split at h
  · cases h
    rw [set_fld, hk]
  · exact absurd h (by simp)

theorem updateHalo_sound {exch : D → H} {f : Nat} {force : Bool} {w w' : World D H E} (hs : Sound exch w)
    (h : updateHalo exch f force w = some w') : Sound exch w' ∧ (w'.fld f).hv = true := by
  constructor
  · intro g
    rw [updateHalo_fld h g]
    split
    · rename_i hc; have := hs f; simp [this.1, this.2.2]
    · exact hs g
  · rw [updateHalo_fld h f]
    by_cases hc : force = true ∨ (w.fld f).hv = false
    · simp [hc]
    · rw [if_neg (fun hh => hc hh.2)]
      cases hv : (w.fld f).hv with
      | true => rfl
      | false => exact absurd (Or.inr hv) hc

theorem commEdges_sound {exch : D → H} {exchE : D → E} {f : Nat} {w w' : World D H E} (hs : Sound exch w) (hv : (w.fld f).hv = true)
    (h : commEdges exchE f w = some w') : Sound exch w' := by
  intro g
  rw [commEdges_fld h g]
  split
  · have := hs f; simp [this.1, this.2.2, this.2.1 hv]
  · exact hs g

theorem async_inv {exch : D → H} {f : Nat} (ks : List (List Cap × (World D H E → Nat → D))) (hk : ∀ k ∈ ks, WriteFirst k.1 ∧ (f, true) ∉ k.1)
    (w : World D H E) (hs : Sound exch w) :
    Sound exch (ks.foldl (fun w k => kernel k.1 k.2 w) w) ∧ (ks.foldl (fun w k => kernel k.1 k.2 w) w).fld f = w.fld f ∧
      (ks.foldl (fun w k => kernel k.1 k.2 w) w).buf = w.buf := by
  induction ks generalizing w with
  | nil => exact ⟨hs, rfl, rfl⟩
  | cons k ks ih =>
    rw [List.foldl_cons]
    obtain ⟨a, b⟩ := hk k (by simp)
    obtain ⟨i1, i2, i3⟩ := ih (fun k h => hk k (by simp [h])) (kernel k.1 k.2 w) (kernel_sound hs a _)
    exact ⟨i1, by rw [i2, kernel_other b], by rw [i3, kernel_buf]⟩

theorem step_sound {exch : D → H} {exchE : D → E} {w w' : World D H E} (hs : Sound exch w) {o : Op D H E} (hd : Disciplined w o)
    (h : step exch exchE w o = some w') : Sound exch w' := by
  cases o with
  | kernel caps body => cases h; exact kernel_sound hs hd body
  | updateHalo f force => exact (updateHalo_sound hs h).1
  | updateEdges f force =>
    simp only [step, updateEdges] at h
    obtain ⟨w1, h1, h2⟩ := Option.bind_eq_some_iff.1 h
    obtain ⟨s1, v1⟩ := updateHalo_sound hs h1
    split at h2
    · exact commEdges_sound s1 v1 h2
    · cases h2; exact s1
  | invalidate f =>
    cases h; intro g; rw [set_fld]; split
    · have := hs f; simp [invalidateHalo, this.1]
    · exact hs g
  | assign f g =>
    cases h
    unfold assign
    split
    · exact hs
    · rename_i hne
      refine kernel_sound hs ?_ _
      intro k hk
      have e : k = f := by simpa using hk
      subst e
      simp [Ne.symm hne]
  | assignAcross f g =>
    simp only [step, assignAcross] at h
    split at h
    · cases h
      intro k
      rw [set_fld]
      split
      · have a := hs f; have b := hs g
        exact ⟨a.1, fun hv => b.2.1 (hd hv), a.2.2⟩
      · exact hs k
    · exact absurd h (by simp)
  | construct f p d hh e =>
    cases h; intro g; unfold construct; rw [set_fld]; split
    · simp
    · exact hs g
  | async f ks =>
    simp only [step] at h
    have s0 : Sound exch (startHalo exch f w) := fun g => by rw [startHalo_fld]; exact hs g
    obtain ⟨i1, i2, i3⟩ := async_inv ks hd _ s0
    unfold finishHalo at h
    rw [i3] at h
    have hb : (startHalo exch f w).buf = some (exch (w.fld f).data) := rfl
    rw [hb] at h
    simp only at h
    split at h
    · cases h
      intro g
      rw [set_fld]
      split
      · have := i1 f
        refine ⟨this.1, fun _ => ?_, this.2.2⟩
        simp only
        rw [i2, startHalo_fld]
      · exact i1 g
    · exact absurd h (by simp)
  | commEdges f => exact hd.elim

theorem run_sound {exch : D → H} {exchE : D → E} (os : List (Op D H E)) {w w' : World D H E} (hs : Sound exch w)
    (hd : DisciplinedRun exch exchE w os) (h : run exch exchE w os = some w') : Sound exch w' := by
  induction os generalizing w with
  | nil => cases h; exact hs
  | cons o os ih =>
    obtain ⟨w1, h1, h2⟩ := Option.bind_eq_some_iff.1 h
    exact ih (step_sound hs hd.1 h1) (hd.2 w1 h1) h2

/-! ### C10 -/

/-- C10: after any disciplined program, a field flagged as having a valid halo has the right halo, and no reference is left -/
theorem C10_flag_sound (exch : D → H) (exchE : D → E) (os : List (Op D H E)) (w w' : World D H E) (hf : Fresh w)
    (hd : DisciplinedRun exch exchE w os) (h : run exch exchE w os = some w') (f : Nat) :
    (w'.fld f).nRef = 0 ∧ ((w'.fld f).hv = true → (w'.fld f).halo = exch (w'.fld f).data) := by
  have := run_sound os (exch := exch) (fun g => ⟨(hf g).1, fun hv => by rw [(hf g).2.1] at hv; exact absurd hv (by simp), (hf g).2.2⟩) hd h f
  exact ⟨this.1, this.2.1⟩

/-- C10: hence updateHalo, at any point of any disciplined program, leaves the right halo, whether or not it communicates, and does not
change the sites of any field -/
theorem C10_update_halo_fresh (exch : D → H) (exchE : D → E) (os : List (Op D H E)) (w w1 w2 : World D H E) (hf : Fresh w)
    (hd : DisciplinedRun exch exchE w os) (h : run exch exchE w os = some w1) (f : Nat) (force : Bool)
    (h2 : updateHalo exch f force w1 = some w2) :
    (w2.fld f).halo = exch (w1.fld f).data ∧ ∀ g, (w2.fld g).data = (w1.fld g).data := by
  have hs := run_sound os (exch := exch) (fun g => ⟨(hf g).1, fun hv => by rw [(hf g).2.1] at hv; exact absurd hv (by simp), (hf g).2.2⟩) hd h
  have e : ∀ g, (w2.fld g).data = (w1.fld g).data := by
    intro g; rw [updateHalo_fld h2 g]; split
    · rename_i hc; rw [hc.1]
    · rfl
  obtain ⟨s2, v2⟩ := updateHalo_sound hs h2
  exact ⟨by rw [(s2 f).2.1 v2, e], e⟩

/-- C10: updateEdges leaves right halo and edges: the edges are in fact always communicated again, since no operation ever sets their flag -/
theorem C10_update_edges_fresh (exch : D → H) (exchE : D → E) (os : List (Op D H E)) (w w1 w2 : World D H E) (hf : Fresh w)
    (hd : DisciplinedRun exch exchE w os) (h : run exch exchE w os = some w1) (f : Nat) (force : Bool)
    (h2 : updateEdges exch exchE f force w1 = some w2) :
    (w2.fld f).halo = exch (w1.fld f).data ∧ (w2.fld f).edges = exchE (w1.fld f).data ∧ (w2.fld f).ev = false ∧
      ∀ g, (w2.fld g).data = (w1.fld g).data := by
  unfold updateEdges at h2
  obtain ⟨wm, h3, h4⟩ := Option.bind_eq_some_iff.1 h2
  obtain ⟨a, b⟩ := C10_update_halo_fresh exch exchE os w w1 wm hf hd h f force h3
  have hs := run_sound os (exch := exch) (fun g => ⟨(hf g).1, fun hv => by rw [(hf g).2.1] at hv; exact absurd hv (by simp), (hf g).2.2⟩) hd h
  have sm := (updateHalo_sound hs h3).1
  rw [if_pos (Or.inr (sm f).2.2)] at h4
  have e := commEdges_fld h4
  refine ⟨by rw [e f]; simp [a], by rw [e f]; simp [b], by rw [e f]; simp [(sm f).2.2], fun g => ?_⟩
  rw [e g]; split
  · rename_i hg; rw [hg]; exact b f
  · exact b g

/-! A program meeting the hypotheses: construct two fields, update, copy one on the other, update again -/
def exW : World Nat Nat Nat := ⟨fun _ => ⟨2, 0, 0, 0, false, false, 0⟩, none⟩
def exOps : List (Op Nat Nat Nat) :=
  [.construct 0 2 5 1 1, .construct 1 2 6 1 1, .updateHalo 0 false, .updateEdges 1 false, .assign 0 1,
   .kernel [(1, true), (0, false), (1, false)] (fun w _ => (w.fld 0).halo + (w.fld 1).data), .async 1 [([(0, true)], fun _ _ => 3)], .updateHalo 0 false]

example : Fresh exW := fun _ => ⟨rfl, rfl, rfl⟩
example : (run (· + 100) (· + 200) exW exOps).map (fun w => (w.fld 0, (w.fld 1).data, (w.fld 1).halo)) =
    some (⟨2, 3, 103, 1, true, false, 0⟩, 111, 211) := rfl
example : DisciplinedRun (· + 100) (· + 200) exW exOps := by
  refine ⟨trivial, fun _ _ => ⟨trivial, fun _ _ => ⟨trivial, fun _ _ => ⟨trivial, fun _ _ => ⟨trivial, fun _ _ => ⟨?_, fun _ _ => ⟨?_, fun _ _ => ⟨trivial, fun _ _ => trivial⟩⟩⟩⟩⟩⟩⟩⟩
  · intro f hf; simp at hf; subst hf; rfl
  · intro k hk; simp at hk; subst hk
    exact ⟨fun f hf => by simp at hf; subst hf; rfl, by simp⟩

/-! ### What goes wrong outside of the rules: all these are plain API calls -/

/-- C10 fails when a kernel captures a field first to read and then to write it: the halo stays flagged as valid, and updateHalo does
nothing. -/
theorem C10_read_then_write_violated :
    ∃ w, run (· + 100) (· + 200) exW [.updateHalo 0 false, .kernel [(0, false), (0, true)] (fun _ _ => 7), .updateHalo 0 false] = some w ∧
      (w.fld 0).halo ≠ (w.fld 0).data + 100 := ⟨_, rfl, by decide⟩

/-- C10 fails after copying a field across memory spaces onto a field with valid halo -/
theorem C10_assign_across_violated :
    ∃ w, run (· + 100) (· + 200) exW [.updateHalo 0 false, .construct 1 2 6 1 1, .assignAcross 0 1, .updateHalo 0 false] = some w ∧
      (w.fld 0).halo ≠ (w.fld 0).data + 100 := ⟨_, rfl, by decide⟩

/-- C10 fails if the field is written while its communication is pending -/
theorem C10_write_in_async_violated :
    ∃ w, run (· + 100) (· + 200) exW [.async 0 [([(0, true)], fun _ _ => 7)], .updateHalo 0 false] = some w ∧
      (w.fld 0).halo ≠ (w.fld 0).data + 100 := ⟨_, rfl, by decide⟩

/-- finishing the communication of the edges alone flags the halo as valid: a later updateHalo leaves a wrong one -/
theorem C10_edges_comm_violated :
    ∃ w, run (· + 100) (· + 200) exW [.commEdges 0, .updateHalo 0 false] = some w ∧
      (w.fld 0).halo ≠ (w.fld 0).data + 100 := ⟨_, rfl, by decide⟩

/-- two communications pending at once share the buffer: the first field gets the halo of the second -/
theorem C10_overlapping_comms_violated :
    let w1 := construct 1 2 6 1 1 exW
    ∃ w2 w3, finishHalo 0 (startHalo (· + 100) 1 (startHalo (· + 100) 0 w1)) = some w2 ∧ updateHalo (· + 100) 0 false w2 = some w3 ∧
      (w3.fld 0).halo ≠ (w3.fld 0).data + 100 := ⟨_, _, rfl, rfl, by decide⟩

end Nissa.HaloState
