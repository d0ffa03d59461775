import Verif.Generate.PropsRun8

set_option linter.all false

/-! C77: the random numbers of the fermionic measurements. -/

namespace Nissa.Gen

variable {C A G L Line : Type}

open Classical in
/-- The fermionic measurements done at a configuration, in the order in which they are done. -/
noncomputable def doneAt (P : Prog C A G L Line) (i : Int) : List (FMeas C G L Line) :=
  (List.range P.nTheories).flatMap fun t : Nat => P.ferm.filter fun m => decide (m.itheory = t ∧ Performed P m i)

theorem fold_ferm (created : Bool) (conf : C) (iconf itheory : Int) (l : List (FMeas C G L Line))
    (s : List (Act C A G Line) × (G × L)) :
    l.foldl (fermOne created conf iconf itheory) s =
      (l.filter fun m => ifMeasIsDuePrint m itheory iconf).foldl
        (fun s m => (s.1 ++ output created m.path (m.run conf iconf s.2).1, (m.run conf iconf s.2).2)) s := by
  induction l generalizing s with
  | nil => rfl
  | cons m l ih =>
    rw [List.foldl_cons, ih]
    by_cases h : ifMeasIsDuePrint m itheory iconf = true
    · rw [List.filter_cons_of_pos (p := fun m => ifMeasIsDuePrint m itheory iconf) h, List.foldl_cons]
      congr 1
      unfold fermOne; rw [if_pos h]
    · rw [List.filter_cons_of_neg (p := fun m => ifMeasIsDuePrint m itheory iconf) h]
      congr 1
      unfold fermOne; rw [if_neg h]

open Classical in
/-- C77: the fermionic measurements of a configuration are done one after the other, each with the random
numbers left by the previous one: no random number is used by two of them, and the trajectory which
follows starts from the generators left by the last. -/
theorem C77_sources (P : Prog C A G L Line) (created : Bool) (conf : C) (iconf acc : Int) (rnd : G × L) :
    measurements P created conf iconf acc rnd = (doneAt P iconf).foldl
      (fun s m => (s.1 ++ output created m.path (m.run conf iconf s.2).1, (m.run conf iconf s.2).2))
      (gaugeActs P created conf iconf acc, rnd) := by
  unfold measurements doneAt
  generalize (gaugeActs P created conf iconf acc, rnd) = s
  have hr : ∀ t ∈ List.range P.nTheories, t < P.nTheories := fun t h => List.mem_range.1 h
  generalize List.range P.nTheories = l at hr
  induction l generalizing s with
  | nil => rfl
  | cons t l ih =>
    rw [List.foldl_cons, List.flatMap_cons, List.foldl_append, ih _ (fun x hx => hr x (List.mem_cons_of_mem _ hx))]
    congr 1
    unfold fermTheory
    have ht := hr t List.mem_cons_self
    by_cases ha : anyFermIsDue P t iconf = true
    · rw [if_pos ha, fold_ferm]
      congr 1
      apply List.filter_congr
      intro m hm
      rw [Bool.eq_iff_iff, decide_eq_true_iff]
      unfold ifMeasIsDuePrint Performed
      rw [Bool.and_eq_true, measureIsDue_iff, decide_eq_true_iff]
      unfold anyFermIsDue at ha
      rw [List.any_eq_true] at ha
      obtain ⟨m', h1, h2⟩ := ha
      rw [fermIsDue_iff] at h2
      constructor
      · rintro ⟨h3, h4⟩
        exact ⟨h4, ⟨by omega, by omega⟩, h3, m', h1, by omega, h2.2⟩
      · rintro ⟨h3, -, h4, -⟩
        exact ⟨h4, h3⟩
    · rw [if_neg ha]
      have : (P.ferm.filter fun m => decide (m.itheory = (t : Int) ∧ Performed P m iconf)) = [] := by
        rw [List.filter_eq_nil_iff]
        intro m hm h
        rw [decide_eq_true_iff] at h
        obtain ⟨h1, -, -, m', h2, h3, h4⟩ := h
        apply ha
        unfold anyFermIsDue
        rw [List.any_eq_true]
        exact ⟨m', h2, by rw [fermIsDue_iff]; exact ⟨by omega, h4⟩⟩
      rw [this]; rfl

/-- Two measurements due at the same configuration: the second one starts from the generators left by the
first one. -/
example :
    let m (p : String) : FMeas Int Nat Nat Int :=
      { each := 1, after := 0, path := p, itheory := 0, run := fun c i g => ([g.1], (g.1 + 7, g.2)) }
    (measurements { Toy.P with ferm := [m "a", m "b"], gauge := [] } false 3 4 1 (5, 6)).1 =
      [.append "a", .line "a" 5, .append "b", .line "b" 12] ∧
    (measurements { Toy.P with ferm := [m "a", m "b"], gauge := [] } false 3 4 1 (5, 6)).2 = (19, 6) := by
  decide +kernel

end Nissa.Gen
