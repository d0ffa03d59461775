import Verif.Ib.Resume
import Mathlib.Tactic.Ring

/-! # C65: resuming an interrupted run (lemmas) -/

set_option linter.all false

namespace Nissa.Resume

/-! ### Specification -/

/-- random numbers used by a hit -/
def drawsPerHit (P : Plan) : Nat := 4 + (if P.photon then 8 else 0) + 24 * P.nSou

/-- position in the stream at the beginning of a hit of a configuration, in a run that skips nothing -/
def posOf (P : Plan) (c i : Nat) : Nat := (c * P.nHits + i) * drawsPerHit P

/-- the numbers drawn from a position -/
def rndAt (P : Plan) (p : Nat) : HitRnd :=
  ⟨[p, p + 1, p + 2, p + 3], if P.photon then some (p + 4) else none, (List.range P.nSou).map fun j => p + (4 + if P.photon then 8 else 0) + 24 * j⟩

/-- the sum of the first hits of a configuration -/
def sumHits (P : Plan) (c : Nat) : Nat → Contr P
  | 0 => zero P
  | i + 1 => fun m => P.contract c (rndAt P (posOf P c i)) m (sumHits P c i m)

/-- what is found in an output file, when averaging the hits: the sections of all the contractions with that name, in order -/
def outAvg (P : Plan) (c nm : Nat) : List UInt8 :=
  (List.finRange P.nC).flatMap fun m => if P.name m = nm then P.text m P.nHits none (sumHits P c P.nHits m) else []

/-- section of a hit, when not averaging -/
def section' (P : Plan) (c nm i : Nat) : List UInt8 :=
  (List.finRange P.nC).flatMap fun m => if P.name m = nm then P.text m 1 (some (rndAt P (posOf P c i))) (P.contract c (rndAt P (posOf P c i)) m (zero P m)) else []

/-- what is found in an output file, when not averaging: a section for each hit -/
def outHits (P : Plan) (c nm n : Nat) : List UInt8 := (List.range n).flatMap (section' P c nm)

/-- a disk where nothing has been done yet (the other files are of any kind) -/
def Fresh (d : Disk) : Prop := ∀ c, d c .partialData = none ∧ d c .finished = none

/-- data have a fixed size, and the number of hits is an `int` -/
structure Plan.Ok (P : Plan) : Prop where
  len : ∀ c r m l, l.length = P.sz m → (P.contract c r m l).length = P.sz m
  hits : P.nHits < 2 ^ 31
  noTransf : P.gaugeTransf = false

/-! ### Random numbers -/

theorem drawOri_eq (pos : Nat) : drawOri pos = ([pos, pos + 1, pos + 2, pos + 3], pos + 4) := rfl

theorem drawSources_eq (n pos : Nat) (skip : Bool) : drawSources n pos skip = (if skip then [] else (List.range n).map fun j => pos + 24 * j, pos + 24 * n) := by
  unfold drawSources getDrawer
  induction n with
  | zero => cases skip <;> rfl
  | succ n ih =>
    rw [List.range_succ, List.foldl_append, ih]
    cases skip
    · simp [List.range_succ, Nat.mul_add, Nat.add_assoc]
    · simp [Nat.mul_add, Nat.add_assoc]

theorem start_hit_pos (P : Plan) (skip : Bool) (pos : Nat) : (start_hit P skip pos).2 = pos + drawsPerHit P := by
  unfold start_hit drawsPerHit drawPhoton getDrawer
  simp only [drawSources_eq, drawOri_eq]
  cases P.photon <;> cases skip <;> simp [Nat.add_assoc]

theorem start_hit_rnd (P : Plan) (pos : Nat) : (start_hit P false pos).1 = rndAt P pos := by
  unfold start_hit rndAt drawPhoton getDrawer
  simp only [drawSources_eq, drawOri_eq]
  cases P.photon <;> simp [Nat.add_assoc]

theorem posOf_succ (P : Plan) (c i : Nat) : posOf P c i + drawsPerHit P = posOf P c (i + 1) := by
  unfold posOf; ring_nf

theorem posOf_next (P : Plan) (c : Nat) : posOf P c P.nHits = posOf P (c + 1) 0 := by
  unfold posOf; ring_nf

theorem skip_conf_eq (P : Plan) (pos : Nat) : skip_conf P pos = pos + P.nHits * drawsPerHit P := by
  unfold skip_conf
  generalize P.nHits = n
  induction n with
  | zero => simp
  | succ n ih => rw [List.range_succ, List.foldl_append, ih]; simp only [List.foldl_cons, List.foldl_nil]; rw [start_hit_pos]; ring

/-! ### Files -/

def target : Effect → Nat × File
  | .create c f => (c, f)
  | .append c f => (c, f)
  | .put c f _ => (c, f)
  | .remove c f => (c, f)

theorem exec_append (d : Disk) (l l' : List Effect) : exec d (l ++ l') = exec (exec d l) l' := by unfold exec; rw [List.foldl_append]

theorem exec_nil (d : Disk) : exec d [] = d := rfl

theorem exec_cons (d : Disk) (e : Effect) (l : List Effect) : exec d (e :: l) = exec (apply d e) l := rfl

theorem setFile_same (d : Disk) (c : Nat) (f : File) (v : Option (List UInt8)) : setFile d c f v c f = v := by unfold setFile; rw [if_pos ⟨rfl, rfl⟩]

theorem setFile_other (d : Disk) (c : Nat) (f : File) (v : Option (List UInt8)) (c' : Nat) (f' : File) (h : (c', f') ≠ (c, f)) : setFile d c f v c' f' = d c' f' := by
  unfold setFile
  rw [if_neg]
  rintro ⟨rfl, rfl⟩
  exact h rfl

theorem apply_other (d : Disk) (e : Effect) (c : Nat) (f : File) (h : target e ≠ (c, f)) : apply d e c f = d c f := by
  cases e <;> exact setFile_other _ _ _ _ _ _ (fun h' => h h'.symm)

theorem exec_other (d : Disk) (l : List Effect) (c : Nat) (f : File) (h : ∀ e ∈ l, target e ≠ (c, f)) : exec d l c f = d c f := by
  induction l generalizing d with
  | nil => rfl
  | cons e l ih =>
    rw [exec_cons, ih _ fun e' he' => h e' (List.mem_cons_of_mem _ he'), apply_other d e c f (h e List.mem_cons_self)]

theorem putAll_target (c : Nat) (f : File) (bs : List UInt8) : ∀ e ∈ putAll c f bs, target e = (c, f) := by
  intro e he
  obtain ⟨b, -, rfl⟩ := List.mem_map.1 he
  rfl

theorem exec_putAll (d : Disk) (c : Nat) (f : File) (bs l : List UInt8) (h : d c f = some l) : exec d (putAll c f bs) c f = some (l ++ bs) := by
  induction bs generalizing d l with
  | nil => simpa [putAll, exec] using h
  | cons b bs ih =>
    show exec (apply d (.put c f b)) (putAll c f bs) c f = _
    rw [ih (apply d (.put c f b)) (l ++ [b]) (by show setFile _ _ _ _ _ _ = _; rw [setFile_same, h]; rfl)]
    simp

theorem putAll_take (c : Nat) (f : File) (bs : List UInt8) (k : Nat) : (putAll c f bs).take k = putAll c f (bs.take k) := by
  unfold putAll; rw [List.map_take]

/-- every prefix of the changes keeps the property -/
def Safe (I : Disk → Prop) (d : Disk) (l : List Effect) : Prop := ∀ k, I (exec d (l.take k))

theorem Safe.append {I : Disk → Prop} {d : Disk} {l l' : List Effect} (h : Safe I d l) (h' : Safe I (exec d l) l') : Safe I d (l ++ l') := by
  intro k
  rw [List.take_append]
  by_cases hk : k ≤ l.length
  · rw [show k - l.length = 0 by omega]; simpa using h k
  · rw [List.take_of_length_le (by omega), exec_append]; exact h' _

theorem Safe.nil {I : Disk → Prop} {d : Disk} (h : I d) : Safe I d [] := by intro k; simpa [exec] using h

theorem Safe.final {I : Disk → Prop} {d : Disk} {l : List Effect} (h : Safe I d l) : I (exec d l) := by
  have := h l.length; rwa [List.take_length] at this

theorem Safe.single {I : Disk → Prop} {d : Disk} {e : Effect} (h : I d) (h' : I (apply d e)) : Safe I d [e] := by
  intro k
  cases k with
  | zero => exact h
  | succ k => simpa [exec] using h'

/-! ### Partial data -/

theorem dec_enc (n : Nat) (h : n < 2 ^ 32) : decInt (encInt n) = n := by
  unfold decInt encInt
  simp only [UInt8.toNat_ofNat']
  omega

theorem encInt_length (n : Nat) : (encInt n).length = 4 := rfl

abbrev readStep (P : Plan) (s : Contr P × List UInt8) (m : Fin P.nC) : Option (Contr P × List UInt8) := do
  let (v, bs) ← fread (P.sz m) s.2
  pure (Function.update s.1 m v, bs)

theorem read_ok (P : Plan) (contr : Contr P) (hl : ∀ m, (contr m).length = P.sz m) (l : List (Fin P.nC)) (c0 : Contr P) (tail : List UInt8) :
    l.foldlM (readStep P) (c0, l.flatMap contr ++ tail) = some (fun m => if m ∈ l then contr m else c0 m, tail) := by
  induction l generalizing c0 with
  | nil => simp
  | cons m l ih =>
    rw [List.foldlM_cons]
    have : readStep P (c0, (m :: l).flatMap contr ++ tail) m = some (Function.update c0 m (contr m), l.flatMap contr ++ tail) := by
      unfold readStep fread
      simp only [List.flatMap_cons, List.append_assoc]
      rw [if_pos (by simp [hl])]
      simp only [Option.bind_eq_bind, Option.bind_some, Option.pure_def]
      rw [← hl m, List.take_left, List.drop_left]
    rw [this]
    simp only [Option.bind_eq_bind, Option.bind_some]
    rw [ih]
    congr 2
    funext m'
    by_cases h : m' = m
    · subst h; by_cases h2 : m' ∈ l <;> simp [h2]
    · simp [h, Function.update_of_ne h]

theorem read_short (P : Plan) (l : List (Fin P.nC)) (c0 : Contr P) (bs : List UInt8) (h : bs.length < (l.map P.sz).sum) : l.foldlM (readStep P) (c0, bs) = none := by
  induction l generalizing c0 bs with
  | nil => simp at h
  | cons m l ih =>
    rw [List.foldlM_cons]
    unfold readStep fread
    simp only
    by_cases hm : P.sz m ≤ bs.length
    · rw [if_pos hm]
      simp only [Option.bind_eq_bind, Option.bind_some, Option.pure_def]
      refine ih _ _ ?_
      rw [List.map_cons, List.sum_cons] at h
      rw [List.length_drop]; omega
    · rw [if_neg hm]; rfl

theorem flatMap_len (P : Plan) (contr : Contr P) (hl : ∀ m, (contr m).length = P.sz m) (l : List (Fin P.nC)) : (l.flatMap contr).length = (l.map P.sz).sum := by
  induction l with
  | nil => rfl
  | cons m l ih => rw [List.flatMap_cons, List.length_append, ih, hl, List.map_cons, List.sum_cons]

theorem partialBytes_length (P : Plan) (n : Nat) (contr : Contr P) (hl : ∀ m, (contr m).length = P.sz m) :
    (partialBytes P n contr).length = 4 + ((List.finRange P.nC).map P.sz).sum := by
  unfold partialBytes
  rw [List.length_append, encInt_length, flatMap_len P contr hl]

/-- **C65**.  The file of partial data gives back the number of hits and the contractions, if whole, and stops the program otherwise: a file cut by an interruption is never taken
for data. -/
theorem C65_partial_data (P : Plan) (n : Nat) (hn : n < 2 ^ 31) (contr c0 : Contr P) (hl : ∀ m, (contr m).length = P.sz m) (t : List UInt8) (ht : t <+: partialBytes P n contr) :
    maybeLoadPartialData P (some t) c0 = if t = partialBytes P n contr then some (n, contr) else none := by
  by_cases h : t = partialBytes P n contr
  · subst h
    rw [if_pos rfl]
    unfold maybeLoadPartialData partialBytes fread
    simp only
    rw [if_pos (by rw [List.length_append, encInt_length]; omega)]
    simp only [Option.bind_eq_bind, Option.bind_some]
    rw [← encInt_length n, List.take_left, List.drop_left]
    have := read_ok P contr hl (List.finRange P.nC) c0 []
    rw [List.append_nil] at this
    unfold readStep at this
    erw [this]
    simp only [Option.bind_some, List.mem_finRange, if_true, Option.pure_def, dec_enc n (by omega)]
  · rw [if_neg h]
    have hlt : t.length < 4 + ((List.finRange P.nC).map P.sz).sum := by
      rw [← partialBytes_length P n contr hl]
      rcases Nat.lt_or_ge t.length (partialBytes P n contr).length with h' | h'
      · exact h'
      · exact absurd (ht.eq_of_length (le_antisymm ht.length_le h')) h
    unfold maybeLoadPartialData fread
    simp only
    by_cases h4 : 4 ≤ t.length
    · rw [if_pos h4]
      simp only [Option.bind_eq_bind, Option.bind_some]
      have := read_short P (List.finRange P.nC) c0 (t.drop 4) (by rw [List.length_drop]; omega)
      unfold readStep at this
      erw [this]
      rfl
    · rw [if_neg h4]; rfl

/-! ### Printing -/

abbrev printStep (P : Plan) (c : Nat) (force : Bool) (txt : Fin P.nC → List UInt8) (s : List Nat × List Effect) (m : Fin P.nC) : List Nat × List Effect :=
  let w := !force && decide (P.name m ∉ s.1)
  let opened := if w then P.name m :: s.1 else s.1
  (opened, s.2 ++ (if w then .create c (.out (P.name m)) else .append c (.out (P.name m))) :: putAll c (.out (P.name m)) (txt m))

theorem print_eq (P : Plan) (c i : Nat) (rnd : HitRnd) (contr : Contr P) : print_contr P c i rnd contr =
    ((List.finRange P.nC).foldl (printStep P c (!P.avg && decide (i ≠ 0)) fun m => P.text m (if P.avg then P.nHits else 1) (if P.avg then none else some rnd) (contr m)) ([], [])).2 := rfl

theorem print_target (P : Plan) (c i : Nat) (rnd : HitRnd) (contr : Contr P) : ∀ e ∈ print_contr P c i rnd contr, ∃ nm, target e = (c, .out nm) := by
  rw [print_eq]
  generalize (fun m => P.text m (if P.avg then P.nHits else 1) (if P.avg then none else some rnd) (contr m)) = txt
  generalize (!P.avg && decide (i ≠ 0)) = force
  have : ∀ (l : List (Fin P.nC)) (s : List Nat × List Effect), (∀ e ∈ s.2, ∃ nm, target e = (c, File.out nm)) → ∀ e ∈ (l.foldl (printStep P c force txt) s).2, ∃ nm, target e = (c, .out nm) := by
    intro l
    induction l with
    | nil => intro s h; exact h
    | cons m l ih =>
      intro s h
      rw [List.foldl_cons]
      refine ih _ ?_
      intro e he
      rcases List.mem_append.1 he with he | he
      · exact h e he
      · rcases List.mem_cons.1 he with rfl | he
        · split <;> exact ⟨_, rfl⟩
        · exact ⟨_, putAll_target _ _ _ e he⟩
  exact this _ _ (by simp)

theorem print_fold (P : Plan) (c : Nat) (force : Bool) (txt : Fin P.nC → List UInt8) (d : Disk) (nm : Nat) (l : List (Fin P.nC)) (o : List Nat) (acc : List Effect) :
    exec d (l.foldl (printStep P c force txt) (o, acc)).2 c (.out nm) =
      if ∃ m ∈ l, P.name m = nm then
        some ((if force = true ∨ nm ∈ o then (exec d acc c (.out nm)).getD [] else []) ++ l.flatMap fun m => if P.name m = nm then txt m else [])
      else exec d acc c (.out nm) := by
  induction l generalizing o acc with
  | nil => simp
  | cons m l ih =>
    rw [List.foldl_cons]
    unfold printStep
    simp only
    rw [ih]
    by_cases hm : P.name m = nm
    · subst hm
      have h1 : exec d (acc ++ (if (!force && decide (P.name m ∉ o)) = true then Effect.create c (.out (P.name m)) else .append c (.out (P.name m))) :: putAll c (.out (P.name m)) (txt m)) c
          (.out (P.name m)) = some ((if force = true ∨ P.name m ∈ o then (exec d acc c (.out (P.name m))).getD [] else []) ++ txt m) := by
        rw [exec_append, exec_cons]
        refine exec_putAll _ _ _ _ _ ?_
        cases force <;> by_cases ho : P.name m ∈ o <;> simp [ho, apply, setFile_same]
      rw [h1]
      have h0 : ∃ m' ∈ m :: l, P.name m' = P.name m := ⟨m, List.mem_cons_self, rfl⟩
      rw [if_pos h0, List.flatMap_cons, if_pos (rfl : P.name m = P.name m)]
      have h2 : force = true ∨ P.name m ∈ (if (!force && decide (P.name m ∉ o)) = true then P.name m :: o else o) := by
        cases force <;> by_cases ho : P.name m ∈ o <;> simp [ho]
      rw [if_pos h2]
      by_cases h3 : ∃ m' ∈ l, P.name m' = P.name m
      · rw [if_pos h3, Option.getD_some, List.append_assoc]
      · rw [if_neg h3]
        have : (l.flatMap fun m' => if P.name m' = P.name m then txt m' else []) = [] := by
          rw [List.flatMap_eq_nil_iff]
          intro m' hm'
          exact if_neg fun h => h3 ⟨m', hm', h⟩
        rw [this, List.append_nil]
    · have h1 : exec d (acc ++ (if (!force && decide (P.name m ∉ o)) = true then Effect.create c (.out (P.name m)) else .append c (.out (P.name m))) :: putAll c (.out (P.name m)) (txt m)) c
          (.out nm) = exec d acc c (.out nm) := by
        rw [exec_append]
        refine exec_other _ _ _ _ ?_
        intro e he h
        have : target e = (c, .out (P.name m)) := by
          rcases List.mem_cons.1 he with rfl | he
          · split <;> rfl
          · exact putAll_target _ _ _ e he
        rw [this] at h
        exact hm (by injection h with _ h; injection h)
      rw [h1, List.flatMap_cons, if_neg hm, List.nil_append]
      have h2 : (nm ∈ (if (!force && decide (P.name m ∉ o)) = true then P.name m :: o else o)) ↔ nm ∈ o := by
        split
        · rw [List.mem_cons]; constructor
          · rintro (h | h)
            · exact absurd h.symm hm
            · exact h
          · exact .inr
        · rfl
      have h3 : (∃ m' ∈ m :: l, P.name m' = nm) ↔ ∃ m' ∈ l, P.name m' = nm := by
        constructor
        · rintro ⟨m', h, h'⟩
          rcases List.mem_cons.1 h with rfl | h
          · exact absurd h' hm
          · exact ⟨m', h, h'⟩
        · rintro ⟨m', h, h'⟩; exact ⟨m', List.mem_cons_of_mem _ h, h'⟩
      simp only [h2, h3]

/-- the files after printing -/
theorem print_exec (P : Plan) (c i : Nat) (rnd : HitRnd) (contr : Contr P) (d : Disk) (m : Fin P.nC) :
    exec d (print_contr P c i rnd contr) c (.out (P.name m)) =
      some ((if P.avg = false ∧ i ≠ 0 then (d c (.out (P.name m))).getD [] else []) ++
        (List.finRange P.nC).flatMap fun m' => if P.name m' = P.name m then P.text m' (if P.avg then P.nHits else 1) (if P.avg then none else some rnd) (contr m') else []) := by
  rw [print_eq, print_fold, if_pos ⟨m, List.mem_finRange m, rfl⟩, exec_nil]
  congr 2
  have : ((!P.avg && decide (i ≠ 0)) = true ∨ P.name m ∈ ([] : List Nat)) ↔ (P.avg = false ∧ i ≠ 0) := by simp
  simp only [this]

end Nissa.Resume
