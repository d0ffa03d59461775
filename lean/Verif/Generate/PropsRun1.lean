import Verif.Generate.Run
import Mathlib.Tactic.Set
import Mathlib.Tactic.ByContra
import Mathlib.Tactic.Push

set_option linter.all false

/-! Lemmas on actions, measurements and on the loop of the generation program. -/

namespace Nissa.Gen

variable {C A G L Line : Type}

/-! ## Actions -/

theorem applyAll_nil (d : Disk C A G Line) : applyAll [] d = d := rfl

theorem applyAll_cons (a : Act C A G Line) (l) (d : Disk C A G Line) :
    applyAll (a :: l) d = applyAll l (a.apply d) := rfl

theorem applyAll_append (l l' : List (Act C A G Line)) (d : Disk C A G Line) :
    applyAll (l ++ l') d = applyAll l' (applyAll l d) := by
  unfold applyAll; exact List.foldl_append

/-- The action does not touch the text file p. -/
def Quiet (p : String) : Act C A G Line → Prop
  | .trunc q | .append q | .line q _ => q ≠ p
  | _ => True

/-- The action does not touch the configuration file p. -/
def CQuiet (p : String) : Act C A G Line → Prop
  | .beginW q | .endW q _ => q ≠ p
  | _ => True

theorem apply_quiet {p : String} {a : Act C A G Line} (h : Quiet p a) (d : Disk C A G Line) :
    (a.apply d).texts p = d.texts p := by
  cases a <;> simp only [Quiet, Act.apply] at h ⊢ <;> simp [Ne.symm h]

theorem apply_cquiet {p : String} {a : Act C A G Line} (h : CQuiet p a) (d : Disk C A G Line) :
    (a.apply d).confs p = d.confs p := by
  cases a <;> simp only [CQuiet, Act.apply] at h ⊢ <;> simp [Ne.symm h]

theorem texts_quiet {p : String} {as : List (Act C A G Line)} (h : ∀ a ∈ as, Quiet p a)
    (d : Disk C A G Line) : (applyAll as d).texts p = d.texts p := by
  induction as generalizing d with
  | nil => rfl
  | cons a l ih =>
    rw [applyAll_cons, ih (fun b hb => h b (List.mem_cons_of_mem _ hb)),
      apply_quiet (h a List.mem_cons_self)]

theorem confs_quiet {p : String} {as : List (Act C A G Line)} (h : ∀ a ∈ as, CQuiet p a)
    (d : Disk C A G Line) : (applyAll as d).confs p = d.confs p := by
  induction as generalizing d with
  | nil => rfl
  | cons a l ih =>
    rw [applyAll_cons, ih (fun b hb => h b (List.mem_cons_of_mem _ hb)),
      apply_cquiet (h a List.mem_cons_self)]

/-- The action writes in the text file q. -/
def TextOf (q : String) : Act C A G Line → Prop
  | .trunc r | .append r | .line r _ => r = q
  | _ => False

theorem TextOf.quiet {q p : String} {a : Act C A G Line} (h : TextOf q a) (hp : q ≠ p) : Quiet p a := by
  cases a <;> simp_all [TextOf, Quiet]

theorem TextOf.cquiet {q p : String} {a : Act C A G Line} (h : TextOf q a) : CQuiet p a := by
  cases a <;> simp_all [TextOf, CQuiet]

theorem textOf_output (created : Bool) (p : String) (ls : List Line) :
    ∀ a ∈ (output created p ls : List (Act C A G Line)), TextOf p a := by
  intro a ha
  unfold output at ha
  rcases List.mem_cons.1 ha with h | h
  · subst h; cases created <;> rfl
  · obtain ⟨l, -, rfl⟩ := List.mem_map.1 h; rfl

theorem texts_lines (p : String) (ls : List Line) (d : Disk C A G Line) (old : List Line)
    (h : d.texts p = some old) :
    (applyAll (ls.map (Act.line p)) d).texts p = some (old ++ ls) := by
  induction ls generalizing d old with
  | nil => simpa [applyAll] using h
  | cons l t ih =>
    rw [List.map_cons, applyAll_cons, ih _ (old ++ [l]) (by simp [Act.apply, h])]
    simp

theorem texts_output (created : Bool) (p : String) (ls : List Line) (d : Disk C A G Line) :
    (applyAll (output created p ls) d).texts p =
      some ((if created then [] else (d.texts p).getD []) ++ ls) := by
  unfold output
  rw [applyAll_cons]
  apply texts_lines
  cases created <;> simp [Act.apply]

/-! ## Measurements -/

theorem gauge_textOf (P : Prog C A G L Line) (created : Bool) (conf : C) (iconf acc : Int)
    (a) (ha : a ∈ (gaugeActs P created conf iconf acc : List (Act C A G Line))) :
    ∃ m ∈ P.gauge, TextOf m.path a := by
  unfold gaugeActs at ha
  obtain ⟨m, hm, h⟩ := List.mem_flatMap.1 ha
  split at h
  · exact ⟨m, hm, textOf_output _ _ _ a h⟩
  · simp at h

theorem fermOne_tail (created : Bool) (conf : C) (iconf it : Int) (m : FMeas C G L Line)
    (s : List (Act C A G Line) × (G × L)) :
    ∃ t, (fermOne created conf iconf it s m).1 = s.1 ++ t ∧ ∀ a ∈ t, TextOf m.path a := by
  unfold fermOne
  split
  · exact ⟨_, rfl, textOf_output _ _ _⟩
  · exact ⟨[], by simp, by simp⟩

theorem fermFold_tail (created : Bool) (conf : C) (iconf it : Int) (ms : List (FMeas C G L Line))
    (s : List (Act C A G Line) × (G × L)) :
    ∃ t, (ms.foldl (fermOne created conf iconf it) s).1 = s.1 ++ t ∧
      ∀ a ∈ t, ∃ m ∈ ms, TextOf m.path a := by
  induction ms generalizing s with
  | nil => exact ⟨[], by simp, by simp⟩
  | cons m ms ih =>
    obtain ⟨t, h1, h2⟩ := fermOne_tail created conf iconf it m s
    obtain ⟨t', h3, h4⟩ := ih (fermOne created conf iconf it s m)
    refine ⟨t ++ t', by rw [List.foldl_cons, h3, h1, List.append_assoc], ?_⟩
    intro a ha
    rcases List.mem_append.1 ha with h | h
    · exact ⟨m, List.mem_cons_self, h2 a h⟩
    · obtain ⟨m', hm', h'⟩ := h4 a h
      exact ⟨m', List.mem_cons_of_mem _ hm', h'⟩

theorem fermTheory_tail (P : Prog C A G L Line) (created : Bool) (conf : C) (iconf : Int) (it : Nat)
    (s : List (Act C A G Line) × (G × L)) :
    ∃ t, (fermTheory P created conf iconf s it).1 = s.1 ++ t ∧
      ∀ a ∈ t, ∃ m ∈ P.ferm, TextOf m.path a := by
  unfold fermTheory
  split
  · exact fermFold_tail _ _ _ _ _ _
  · exact ⟨[], by simp, by simp⟩

theorem theories_tail (P : Prog C A G L Line) (created : Bool) (conf : C) (iconf : Int) (ts : List Nat)
    (s : List (Act C A G Line) × (G × L)) :
    ∃ t, (ts.foldl (fermTheory P created conf iconf) s).1 = s.1 ++ t ∧
      ∀ a ∈ t, ∃ m ∈ P.ferm, TextOf m.path a := by
  induction ts generalizing s with
  | nil => exact ⟨[], by simp, by simp⟩
  | cons i ts ih =>
    obtain ⟨t, h1, h2⟩ := fermTheory_tail P created conf iconf i s
    obtain ⟨t', h3, h4⟩ := ih (fermTheory P created conf iconf s i)
    refine ⟨t ++ t', by rw [List.foldl_cons, h3, h1, List.append_assoc], ?_⟩
    intro a ha
    rcases List.mem_append.1 ha with h | h
    · exact h2 a h
    · exact h4 a h

theorem measurements_tail (P : Prog C A G L Line) (created : Bool) (conf : C) (iconf acc : Int)
    (rnd : G × L) :
    ∃ t, (measurements P created conf iconf acc rnd).1 = gaugeActs P created conf iconf acc ++ t ∧
      ∀ a ∈ t, ∃ m ∈ P.ferm, TextOf m.path a :=
  theories_tail _ _ _ _ _ _

theorem measurements_textOf (P : Prog C A G L Line) (created : Bool) (conf : C) (iconf acc : Int)
    (rnd : G × L) (a) (ha : a ∈ (measurements P created conf iconf acc rnd).1) :
    ∃ q, TextOf q a := by
  obtain ⟨t, h, ht⟩ := measurements_tail P created conf iconf acc rnd
  rw [h] at ha
  rcases List.mem_append.1 ha with h | h
  · obtain ⟨m, -, h⟩ := gauge_textOf _ _ _ _ _ _ h; exact ⟨_, h⟩
  · obtain ⟨m, -, h⟩ := ht _ h; exact ⟨_, h⟩

/-- Without fermionic measurements no random number is used. -/
theorem measurements_rnd (P : Prog C A G L Line) (created : Bool) (conf : C) (iconf acc : Int)
    (rnd : G × L) (h : P.ferm = []) : (measurements P created conf iconf acc rnd).2 = rnd := by
  unfold measurements
  generalize List.range P.nTheories = ts
  generalize gaugeActs P created conf iconf acc = g
  induction ts generalizing g with
  | nil => rfl
  | cons t ts ih =>
    rw [List.foldl_cons]
    have : fermTheory P created conf iconf (g, rnd) t = (g, rnd) := by
      unfold fermTheory; rw [h]; simp
    rw [this]; exact ih g

/-! ## The text of one gauge measurement -/

theorem texts_gauge (P : Prog C A G L Line) (created : Bool) (conf : C) (iconf acc : Int)
    (m : GMeas C Line) (pre post : List (GMeas C Line)) (hg : P.gauge = pre ++ m :: post)
    (h1 : ∀ m' ∈ pre, m'.path ≠ m.path) (h2 : ∀ m' ∈ post, m'.path ≠ m.path) (d : Disk C A G Line) :
    (applyAll (gaugeActs P created conf iconf acc) d).texts m.path =
      if measureIsDue m.each m.after iconf then
        some ((if created then [] else (d.texts m.path).getD []) ++ m.lines conf iconf acc)
      else d.texts m.path := by
  unfold gaugeActs
  rw [hg, List.flatMap_append, List.flatMap_cons, applyAll_append, applyAll_append]
  rw [texts_quiet (p := m.path)]
  swap
  · intro a ha
    obtain ⟨m', hm', h⟩ := List.mem_flatMap.1 ha
    split at h
    · exact (textOf_output _ _ _ a h).quiet (h2 m' hm')
    · simp at h
  have hpre : ∀ d : Disk C A G Line, (applyAll (pre.flatMap fun m =>
      if measureIsDue m.each m.after iconf then output created m.path (m.lines conf iconf acc) else []) d).texts
        m.path = d.texts m.path := by
    intro d
    apply texts_quiet
    intro a ha
    obtain ⟨m', hm', h⟩ := List.mem_flatMap.1 ha
    split at h
    · exact (textOf_output _ _ _ a h).quiet (h1 m' hm')
    · simp at h
  split
  · rw [texts_output, hpre]
  · rw [applyAll_nil, hpre]

theorem texts_measurements_gauge (P : Prog C A G L Line) (created : Bool) (conf : C) (iconf acc : Int)
    (rnd : G × L)
    (m : GMeas C Line) (pre post : List (GMeas C Line)) (hg : P.gauge = pre ++ m :: post)
    (h1 : ∀ m' ∈ pre, m'.path ≠ m.path) (h2 : ∀ m' ∈ post, m'.path ≠ m.path)
    (h3 : ∀ m' ∈ P.ferm, m'.path ≠ m.path) (d : Disk C A G Line) :
    (applyAll (measurements P created conf iconf acc rnd).1 d).texts m.path =
      if measureIsDue m.each m.after iconf then
        some ((if created then [] else (d.texts m.path).getD []) ++ m.lines conf iconf acc)
      else d.texts m.path := by
  obtain ⟨t, h, ht⟩ := measurements_tail P created conf iconf acc rnd
  rw [h, applyAll_append, texts_quiet (p := m.path)]
  · exact texts_gauge P created conf iconf acc m pre post hg h1 h2 d
  · intro a ha
    obtain ⟨m', hm', h⟩ := ht a ha
    exact h.quiet (h3 m' hm')

/-! ## Being due -/

theorem measureIsDue_iff (each after iconf : Int) :
    measureIsDue each after iconf = true ↔ 0 < each ∧ after ≤ iconf ∧ each ∣ iconf - after := by
  unfold measureIsDue
  simp only [Bool.and_eq_true, decide_eq_true_eq, ← Int.dvd_iff_tmod_eq_zero]
  constructor
  · rintro ⟨⟨a, b⟩, c⟩; exact ⟨a, by omega, b⟩
  · rintro ⟨a, b, c⟩; exact ⟨⟨a, c⟩, by omega⟩

theorem fermIsDue_iff (m : FMeas C G L Line) (it iconf : Int) :
    fermIsDue m it iconf = true ↔ m.itheory = it ∧ 0 < m.each ∧ m.each ∣ iconf ∧ m.after ≤ iconf := by
  unfold fermIsDue
  simp only [Bool.and_eq_true, decide_eq_true_eq, ← Int.dvd_iff_tmod_eq_zero]
  constructor
  · rintro ⟨⟨⟨a, b⟩, c⟩, d⟩; exact ⟨a, b, c, d⟩
  · rintro ⟨a, b, c, d⟩; exact ⟨⟨⟨a, b⟩, c⟩, d⟩

end Nissa.Gen
