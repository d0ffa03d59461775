import Verif.Tune.PropsTuner2

set_option linter.all false

/-! C78: tuning a loop does not change what the loop does. -/

namespace Nissa.Tune

variable {V H R : Type}

/-! ## Actions -/

theorem runBegin_field (E : Env V) (n : Nat) (s : St V H R) (N : String) (F : Nat → Prop) (f : Nat) (hf : F f)
    (hN : E.copyName f ≠ N) (hmax : 1 < E.nMax (E.copyName f)) (hpos : 0 < E.copyLen f) (hval : ValidOff E N s.table) :
    ∃ s', runBegin E (parLoop E (n + 1)) s (.field f) = .ok s' ∧
      s'.mem = { s.mem with backup := Function.update s.mem.backup f (some (s.mem.bulk f)) } ∧ Step E N F s s' ∧
      (s.table.size (E.copyName f) (E.copyLen f) = none → ∃ T ∈ s'.files, ∀ l, T.size N l = s.table.size N l) := by
  obtain ⟨s', h1, h2, h3, h4⟩ := assign_spec E n (copyLoop E f)
    { s with mem := { s.mem with backup := Function.update s.mem.backup f (some E.junk) } } N F hN ⟨f, hf, rfl⟩
    (fun m => by simp only [copyLoop, Function.update_idem, Function.update_self]; cases m.backup f <;> rfl) hmax hpos hval
  refine ⟨s', h1, ?_, ⟨h3.dnb, h3.valid, h3.names, h3.sizeN, h3.gen⟩, ?_⟩
  · rw [h2]; simp [copyLoop, Function.update_idem]
  · intro h
    obtain ⟨T, hT, hT'⟩ := h4 h
    exact ⟨T, hT, fun l => hT' N l (fun k => hN k.1.symm)⟩

theorem runEnd_field (E : Env V) (n : Nat) (s : St V H R) (N : String) (F : Nat → Prop) (f : Nat) (hf : F f)
    (hN : E.copyName f ≠ N) (hmax : 1 < E.nMax (E.copyName f)) (hpos : 0 < E.copyLen f) (hval : ValidOff E N s.table)
    (v : V) (hv : s.mem.backup f = some v) :
    ∃ s', runEnd E (parLoop E (n + 1)) s (.field f) = .ok s' ∧
      s'.mem = { s.mem with bulk := Function.update s.mem.bulk f v, backup := Function.update s.mem.backup f none } ∧
      Step E N F s s' := by
  obtain ⟨s', h1, h2, h3, -⟩ := assign_spec E n (restoreLoop E f) s N F hN ⟨f, hf, rfl⟩
    (fun m => by
      cases h : m.backup f <;> simp [restoreLoop, h, Function.update_idem]) hmax hpos hval
  simp only [runEnd, hv, h1]
  refine ⟨_, rfl, ?_, ⟨h3.dnb, h3.valid, h3.names, h3.sizeN, h3.gen⟩⟩
  show ({ s'.mem with backup := _ } : Mem V H R) = _
  rw [h2]; simp [restoreLoop, hv]

/-- The list of actions holds only fields (whose copies can be done) and the generators. -/
structure Regs (E : Env V) (N : String) (l : List Act) : Prop where
  noCopy : ∀ f, Act.copyOf f ∉ l
  name : ∀ f, Act.field f ∈ l → E.copyName f ≠ N
  max : ∀ f, Act.field f ∈ l → 1 < E.nMax (E.copyName f)
  pos : ∀ f, Act.field f ∈ l → 0 < E.copyLen f

theorem Regs.tail {E : Env V} {N} {a} {l} (h : Regs E N (a :: l)) : Regs E N l :=
  ⟨fun f k => h.noCopy f (List.mem_cons_of_mem _ k), fun f k => h.name f (List.mem_cons_of_mem _ k),
    fun f k => h.max f (List.mem_cons_of_mem _ k), fun f k => h.pos f (List.mem_cons_of_mem _ k)⟩

theorem begins_spec (E : Env V) (n : Nat) (N : String) (F : Nat → Prop) (l : List Act) (hl : Regs E N l)
    (hF : ∀ f, Act.field f ∈ l → F f) (s : St V H R) (hval : ValidOff E N s.table) :
    ∃ s', runAll (runBegin E (parLoop E (n + 1))) l s = .ok s' ∧ Step E N F s s' ∧
      s'.mem.bulk = s.mem.bulk ∧ s'.mem.halo = s.mem.halo ∧ s'.mem.rng = s.mem.rng ∧
      (∀ f, s'.mem.backup f = if Act.field f ∈ l then some (s.mem.bulk f) else s.mem.backup f) ∧
      (s'.mem.backupRng = if Act.rng ∈ l then some s.mem.rng else s.mem.backupRng) := by
  induction l generalizing s with
  | nil => exact ⟨s, rfl, Step.refl _ _ _ _, rfl, rfl, rfl, fun f => by simp, by simp⟩
  | cons a l ih =>
    cases a with
    | field f =>
      obtain ⟨s1, h1, h2, h3, -⟩ := runBegin_field E n s N F f (hF f List.mem_cons_self) (hl.name f List.mem_cons_self)
        (hl.max f List.mem_cons_self) (hl.pos f List.mem_cons_self) hval
      obtain ⟨s2, k1, k2, k3, k4, k5, k6, k7⟩ := ih hl.tail (fun f hf => hF f (List.mem_cons_of_mem _ hf)) s1 (h3.valid hval)
      refine ⟨s2, ?_, h3.trans k2, by rw [k3, h2], by rw [k4, h2], by rw [k5, h2], ?_, ?_⟩
      · unfold runAll; rw [h1]; exact k1
      · intro g
        rw [k6, h2]
        by_cases hg : g = f
        · subst hg; simp
        · simp [hg, Function.update_of_ne hg]
      · rw [k7, h2]; simp
    | rng =>
      have hstep : Step E N F s { s with mem := { s.mem with backupRng := some s.mem.rng } } :=
        ⟨rfl, fun h => h, fun _ h => h, fun _ => rfl, fun _ => rfl⟩
      obtain ⟨s2, k1, k2, k3, k4, k5, k6, k7⟩ := ih hl.tail (fun f hf => hF f (List.mem_cons_of_mem _ hf))
        { s with mem := { s.mem with backupRng := some s.mem.rng } } hval
      refine ⟨s2, ?_, hstep.trans k2, k3, k4, k5, ?_, ?_⟩
      · unfold runAll; exact k1
      · intro g; rw [k6]; simp
      · rw [k7]; simp
    | copyOf f => exact absurd List.mem_cons_self (hl.noCopy f)

theorem ends_spec (E : Env V) (n : Nat) (N : String) (F : Nat → Prop) (l : List Act) (hl : Regs E N l)
    (hnd : l.Nodup) (hF : ∀ f, Act.field f ∈ l → F f) (s : St V H R) (hval : ValidOff E N s.table) (v : Nat → V) (r : R)
    (hb : ∀ f, Act.field f ∈ l → s.mem.backup f = some (v f)) (hr : Act.rng ∈ l → s.mem.backupRng = some r) :
    ∃ s', runAll (runEnd E (parLoop E (n + 1))) l s = .ok s' ∧ Step E N F s s' ∧
      (∀ f, s'.mem.bulk f = if Act.field f ∈ l then v f else s.mem.bulk f) ∧ s'.mem.halo = s.mem.halo ∧
      (s'.mem.rng = if Act.rng ∈ l then r else s.mem.rng) := by
  induction l generalizing s with
  | nil => exact ⟨s, rfl, Step.refl _ _ _ _, fun f => by simp, rfl, by simp⟩
  | cons a l ih =>
    obtain ⟨hna, hnd'⟩ := List.nodup_cons.1 hnd
    cases a with
    | field f =>
      obtain ⟨s1, h1, h2, h3⟩ := runEnd_field E n s N F f (hF f List.mem_cons_self) (hl.name f List.mem_cons_self)
        (hl.max f List.mem_cons_self) (hl.pos f List.mem_cons_self) hval _ (hb f List.mem_cons_self)
      obtain ⟨s2, k1, k2, k3, k4, k5⟩ := ih hl.tail hnd' (fun f hf => hF f (List.mem_cons_of_mem _ hf)) s1 (h3.valid hval)
        (by
          intro g hg
          have hgf : g ≠ f := fun e => hna (e ▸ hg)
          rw [h2]
          simp only [Function.update_of_ne hgf]
          exact hb g (List.mem_cons_of_mem _ hg))
        (by intro h; rw [h2]; exact hr (List.mem_cons_of_mem _ h))
      refine ⟨s2, ?_, h3.trans k2, ?_, by rw [k4, h2], by rw [k5, h2]; simp⟩
      · unfold runAll; rw [h1]; exact k1
      · intro g
        rw [k3, h2]
        by_cases hg : g = f
        · subst hg; simp [hna]
        · simp [hg, Function.update_of_ne hg]
    | rng =>
      have hrr := hr List.mem_cons_self
      have hstep : Step E N F s { s with mem := { s.mem with rng := r, backupRng := none } } :=
        ⟨rfl, fun h => h, fun _ h => h, fun _ => rfl, fun _ => rfl⟩
      obtain ⟨s2, k1, k2, k3, k4, k5⟩ := ih hl.tail hnd' (fun f hf => hF f (List.mem_cons_of_mem _ hf))
        { s with mem := { s.mem with rng := r, backupRng := none } } hval
        (fun g hg => hb g (List.mem_cons_of_mem _ hg)) (fun h => absurd h hna)
      refine ⟨s2, ?_, hstep.trans k2, ?_, k4, ?_⟩
      · simp only [runAll, runEnd, hrr]; exact k1
      · intro g; rw [k3]; simp
      · rw [k5]; simp [hna]
    | copyOf f => exact absurd List.mem_cons_self (hl.noCopy f)

/-! ## The theorem -/

/-- Two memories with the same content, apart from the halo of the fields being written (which is declared
invalid at the end of the loop, C10) and from the copies made for the tuning. -/
def Same (W : Nat → Prop) (m m' : Mem V H R) : Prop :=
  m.bulk = m'.bulk ∧ m.rng = m'.rng ∧ ∀ f, ¬ W f → m.halo f = m'.halo f

/-- The kernel has registered all what it changes: it changes only the fields it has asked to write, the
generators only if registered, and what it computes depends neither on the halo of the fields it writes nor
on the copies made for the tuning. -/
structure Covered (L : Loop V H R) : Prop where
  bulk : ∀ m f, Act.field f ∉ L.regs → (L.run m).bulk f = m.bulk f
  halo : ∀ m f, Act.field f ∉ L.regs → (L.run m).halo f = m.halo f
  rng : Act.rng ∉ L.regs → ∀ m, (L.run m).rng = m.rng
  backup : ∀ m, (L.run m).backup = m.backup ∧ (L.run m).backupRng = m.backupRng
  same : ∀ m m', Same (fun f => Act.field f ∈ L.regs) m m' → Same (fun f => Act.field f ∈ L.regs) (L.run m) (L.run m')

theorem Covered.iterate {L : Loop V H R} (h : Covered L) (k : Nat) (m : Mem V H R) :
    (∀ f, Act.field f ∉ L.regs → (L.run^[k] m).bulk f = m.bulk f) ∧
    (∀ f, Act.field f ∉ L.regs → (L.run^[k] m).halo f = m.halo f) ∧
    (Act.rng ∉ L.regs → (L.run^[k] m).rng = m.rng) ∧
    (L.run^[k] m).backup = m.backup ∧ (L.run^[k] m).backupRng = m.backupRng := by
  induction k generalizing m with
  | zero => exact ⟨fun _ _ => rfl, fun _ _ => rfl, fun _ => rfl, rfl, rfl⟩
  | succ k ih =>
    rw [Function.iterate_succ_apply]
    obtain ⟨i1, i2, i3, i4, i5⟩ := ih (L.run m)
    exact ⟨fun f hf => (i1 f hf).trans (h.bulk m f hf), fun f hf => (i2 f hf).trans (h.halo m f hf),
      fun hr => (i3 hr).trans (h.rng hr m), i4.trans (h.backup m).1, i5.trans (h.backup m).2⟩

/-- Number of block sizes tried. -/
def nSizes (E : Env V) (name : String) : Nat := (testSizes ((E.nMax name).toNat + 1) 1 (E.nMax name)).length

theorem iterate_backup {L : Loop V H R}
    (hbk : ∀ m, (L.run m).backup = m.backup ∧ (L.run m).backupRng = m.backupRng) (k : Nat) (m : Mem V H R) :
    (L.run^[k] m).backup = m.backup ∧ (L.run^[k] m).backupRng = m.backupRng := by
  induction k generalizing m with
  | zero => exact ⟨rfl, rfl⟩
  | succ k ih =>
    rw [Function.iterate_succ_apply]
    obtain ⟨i4, i5⟩ := ih (L.run m)
    exact ⟨i4.trans (hbk m).1, i5.trans (hbk m).2⟩

/-- A loop which is tuned: the last launch starts from a memory in which what has been registered is as at
the beginning, and all the rest is what the trials have left. -/
theorem tuned_spec (E : Env V) (n : Nat) (L : Loop V H R) (s : St V H R) (hd : s.doNotBackup = false)
    (hmax : 1 < E.nMax L.name) (hval : ∀ nm l b, s.table.size nm l = some b → 1 ≤ b ∧ b ≤ E.nMax nm)
    (hr : Regs E L.name L.regs) (hnd : L.regs.Nodup)
    (hbk : ∀ m, (L.run m).backup = m.backup ∧ (L.run m).backupRng = m.backupRng) (hlen : 0 < L.len)
    (hinfo : E.verbose = false ∨ ∀ f, Act.field f ∈ L.regs → E.copyName f ∈ s.table.names)
    (hsz : s.table.size L.name L.len = none) :
    ∃ s' m2 m3, parLoop E (n + 2) L s = .ok s' ∧ s'.mem = L.run m3 ∧
      (m2.bulk = s.mem.bulk ∧ m2.halo = s.mem.halo ∧ m2.rng = s.mem.rng) ∧
      (∀ f, m3.bulk f = if Act.field f ∈ L.regs then s.mem.bulk f
        else (L.run^[(nBench + 1) * nSizes E L.name] m2).bulk f) ∧
      m3.halo = (L.run^[(nBench + 1) * nSizes E L.name] m2).halo ∧
      (m3.rng = if Act.rng ∈ L.regs then s.mem.rng else (L.run^[(nBench + 1) * nSizes E L.name] m2).rng) ∧
      s'.doNotBackup = false ∧ (∃ b, s'.table.size L.name L.len = some b) ∧
      (∀ nm l b, s'.table.size nm l = some b → 1 ≤ b ∧ b ≤ E.nMax nm) := by
  obtain ⟨r1, r2, r3, r4, r5, r6, r7, r8, r9, r10⟩ :=
    register_spec L.name { s with begins := L.regs, ends := L.regs }
  unfold parLoop
  dsimp only
  rw [if_pos hlen, if_neg (by omega)]
  set s1 := register L.name { s with begins := L.regs, ends := L.regs } with hs1
  unfold getOptimalBlockSize
  rw [r2, hsz]
  dsimp only
  have hdn : s1.doNotBackup = false := r5.trans hd
  -- beginning
  have hv0 : ValidOff E L.name (s1.table.set L.name L.len 0) := by
    intro nm l b hnm hs
    rw [set_size, if_neg (fun h => hnm h.1), r2] at hs
    exact hval nm l b hs
  obtain ⟨s2, b1, b2, b3, b4, b5, b6, b7⟩ := begins_spec E n L.name (fun f => Act.field f ∈ L.regs) L.regs hr
    (fun f hf => hf) { s1 with table := s1.table.set L.name L.len 0, begins := [], ends := [], doNotBackup := true } hv0
  have hg1 : guarded (runBegin E (parLoop E (n + 1))) s1.begins
      { s1 with table := s1.table.set L.name L.len 0, begins := [], ends := [] } = .ok { s2 with doNotBackup := false } := by
    unfold guarded
    simp only [hdn]
    rw [r6]
    have := b1
    simp only [Bool.false_eq_true, if_false]
    rw [this]
  rw [hg1]
  dsimp only
  rw [if_neg (by omega)]
  -- trials
  set t := (testSizes ((E.nMax L.name).toNat + 1) 1 (E.nMax L.name)).foldl (trial E L.run)
    ({ mem := s2.mem, clk := s2.clk, opt := 0, minTime := 0 } : Trial V H R) with ht
  obtain ⟨i, hi, ho, -⟩ := trials_opt E L.run _ (fun b hb => by have := sizes_pos (E.nMax L.name) b hb; omega)
    (sizes_ne _ hmax) ({ mem := s2.mem, clk := s2.clk, opt := 0, minTime := 0 } : Trial V H R) rfl
  have hv := sizes_pos (E.nMax L.name) _ (List.getElem_mem hi)
  rw [← ho, ← ht] at hv
  have htm : t.mem = L.run^[(nBench + 1) * (testSizes ((E.nMax L.name).toNat + 1) 1 (E.nMax L.name)).length] s2.mem :=
    (trials_mem E L.run _ _).1
  have c45 : t.mem.backup = s2.mem.backup ∧ t.mem.backupRng = s2.mem.backupRng := by
    rw [htm]; exact iterate_backup hbk _ _
  obtain ⟨c4, c5⟩ := c45
  -- end
  have hv2 : ValidOff E L.name (s2.table.set L.name L.len t.opt) := by
    intro nm l b hnm hs
    rw [set_size, if_neg (fun h => hnm h.1)] at hs
    exact b2.valid hv0 nm l b hnm hs
  obtain ⟨s3, e1, e2, e3, e4, e5⟩ := ends_spec E n L.name (fun f => Act.field f ∈ L.regs) L.regs hr hnd
    (fun f hf => hf) { s2 with mem := t.mem, clk := t.clk, table := s2.table.set L.name L.len t.opt, doNotBackup := true } hv2
    s.mem.bulk s.mem.rng
    (by
      intro f hf
      show t.mem.backup f = _
      rw [c4, b6, if_pos hf]
      show some (s1.mem.bulk f) = _
      rw [r1])
    (by
      intro h
      show t.mem.backupRng = _
      rw [c5, b7, if_pos h]
      show some s1.mem.rng = _
      rw [r1])
  have hg2 : guarded (runEnd E (parLoop E (n + 1))) s1.ends
      { s2 with mem := t.mem, clk := t.clk, table := s2.table.set L.name L.len t.opt, doNotBackup := false } =
      .ok { s3 with doNotBackup := false } := by
    unfold guarded
    simp only [Bool.false_eq_true, if_false]
    rw [r7]
    have := e1
    rw [this]
  rw [hg2]
  dsimp only
  have hgen : ¬ (E.verbose = true ∧ s3.gen ≠ s1.gen) := by
    rintro ⟨h1, h2⟩
    rcases hinfo with h | h
    · rw [h] at h1; simp at h1
    · apply h2
      have g1 : s3.gen = s2.gen := e2.gen (fun f hf => b2.names _ (r3 _ (h f hf)))
      have g2 : s2.gen = s1.gen := b2.gen (fun f hf => r3 _ (h f hf))
      rw [g1, g2]
  rw [if_neg hgen]
  dsimp only
  rw [if_neg (by omega)]
  have hs3N : s3.table.size L.name L.len = some t.opt := by
    rw [e2.sizeN]; simp [set_size]
  refine ⟨_, s2.mem, s3.mem, rfl, rfl, ⟨?_, ?_, ?_⟩, ?_, ?_, ?_, rfl, ⟨t.opt, hs3N⟩, ?_⟩
  · rw [b3]; show s1.mem.bulk = _; rw [r1]
  · rw [b4]; show s1.mem.halo = _; rw [r1]
  · rw [b5]; show s1.mem.rng = _; rw [r1]
  · intro f; rw [e3]
    split
    · rfl
    · show t.mem.bulk f = _
      rw [htm]; rfl
  · rw [e4]; show t.mem.halo = _
    rw [htm]; rfl
  · rw [e5]
    split
    · rfl
    · show t.mem.rng = _
      rw [htm]; rfl
  · intro nm l b hs
    have hs' : s3.table.size nm l = some b := hs
    by_cases hn : nm = L.name
    · subst hn
      rw [e2.sizeN] at hs'
      by_cases hl : l = L.len
      · subst hl; simp [set_size] at hs'; rw [← hs']; exact hv
      · simp only [set_size] at hs'
        rw [if_neg (fun h => hl h.2), b2.sizeN] at hs'
        simp only [set_size] at hs'
        rw [if_neg (fun h => hl h.2), r2] at hs'
        exact hval _ _ _ hs'
    · exact e2.valid hv2 nm l b hn hs'


/-- C78: a parallel loop whose kernel registers what it writes does, whatever has been tuned before and
whatever the times measured, exactly what a single launch does: fields and random generators are those of
one execution, also when the loop is tuned (which means thousands of executions).  Afterwards a block size
for it is known, and all the known ones can be used. -/
theorem C78_tuning (E : Env V) (n : Nat) (L : Loop V H R) (s : St V H R) (hd : s.doNotBackup = false)
    (hmax : 1 < E.nMax L.name) (hval : ∀ nm l b, s.table.size nm l = some b → 1 ≤ b ∧ b ≤ E.nMax nm)
    (hr : Regs E L.name L.regs) (hnd : L.regs.Nodup) (hc : Covered L) (hlen : 0 < L.len)
    (hinfo : E.verbose = false ∨ ∀ f, Act.field f ∈ L.regs → E.copyName f ∈ s.table.names) :
    ∃ s', parLoop E (n + 2) L s = .ok s' ∧
      Same (fun f => Act.field f ∈ L.regs) s'.mem (L.run s.mem) ∧
      s'.doNotBackup = false ∧ (∃ b, s'.table.size L.name L.len = some b) ∧
      (∀ nm l b, s'.table.size nm l = some b → 1 ≤ b ∧ b ≤ E.nMax nm) := by
  cases hsz : s.table.size L.name L.len with
  | some b =>
    obtain ⟨r1, r2, r3, r4, r5, r6, r7, r8, r9, r10⟩ :=
      register_spec L.name { s with begins := L.regs, ends := L.regs }
    unfold parLoop
    dsimp only
    rw [if_pos hlen, if_neg (by omega)]
    set s1 := register L.name { s with begins := L.regs, ends := L.regs } with hs1
    unfold getOptimalBlockSize
    rw [r2, hsz]
    dsimp only
    have hb := hval _ _ b hsz
    rw [if_neg (by omega)]
    refine ⟨_, rfl, ?_, r5.trans hd, ⟨b, by rw [r2]; exact hsz⟩, by rw [r2]; exact hval⟩
    show Same _ (L.run s1.mem) _
    rw [r1]; exact ⟨rfl, rfl, fun _ _ => rfl⟩
  | none =>
    obtain ⟨s', m2, m3, h1, h2, ⟨h3, h4, h5⟩, h6, h7, h8, h9, h10, h11⟩ :=
      tuned_spec E n L s hd hmax hval hr hnd hc.backup hlen hinfo hsz
    obtain ⟨c1, c2, c3, -, -⟩ := hc.iterate ((nBench + 1) * nSizes E L.name) m2
    refine ⟨s', h1, ?_, h9, h10, h11⟩
    rw [h2]
    apply hc.same
    refine ⟨?_, ?_, ?_⟩
    · funext f
      rw [h6]
      split
      · rfl
      · rename_i hf
        rw [c1 f hf, h3]
    · rw [h8]
      split
      · rfl
      · rename_i hf
        rw [c3 hf, h5]
    · intro f hf
      rw [h7, c2 f hf, h4]

end Nissa.Tune
