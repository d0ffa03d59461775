import Verif.Tune.PropsTuner1
import Mathlib.Tactic.ByContra
import Mathlib.Tactic.Push
import Mathlib.Tactic.FinCases

set_option linter.all false

/-! Lemmas on the tuner. -/

namespace Nissa.Tune

variable {V H R : Type}

/-! ## Trials -/

/-- Time of a launch measured between two readings of the clock. -/
def runTime (E : Env V) (c : Nat) : ℚ := (E.time (c + 1) - E.time c) / nBench

theorem trial_mem (E : Env V) (run : Mem V H R → Mem V H R) (t : Trial V H R) (b : Int) :
    (trial E run t b).mem = run^[nBench + 1] t.mem ∧ (trial E run t b).clk = t.clk + 2 := by
  unfold trial
  dsimp only
  split <;> simp [Function.iterate_succ_apply]

theorem trials_mem (E : Env V) (run : Mem V H R → Mem V H R) (l : List Int) (t : Trial V H R) :
    (l.foldl (trial E run) t).mem = run^[(nBench + 1) * l.length] t.mem ∧
    (l.foldl (trial E run) t).clk = t.clk + 2 * l.length := by
  induction l generalizing t with
  | nil => simp
  | cons b l ih =>
    rw [List.foldl_cons]
    obtain ⟨h1, h2⟩ := trial_mem E run t b
    obtain ⟨h3, h4⟩ := ih (trial E run t b)
    rw [h3, h4, h1, h2]
    refine ⟨?_, by simp; omega⟩
    rw [← Function.iterate_add_apply]
    congr 1

theorem trial_opt (E : Env V) (run : Mem V H R → Mem V H R) (t : Trial V H R) (b : Int) :
    ((t.opt = 0 ∨ runTime E t.clk < t.minTime) ∧ (trial E run t b).opt = b ∧ (trial E run t b).minTime = runTime E t.clk) ∨
    ((t.opt ≠ 0 ∧ t.minTime ≤ runTime E t.clk) ∧ (trial E run t b).opt = t.opt ∧ (trial E run t b).minTime = t.minTime) := by
  unfold trial runTime
  dsimp only
  by_cases h : t.opt = 0 ∨ t.minTime > (E.time (t.clk + 1) - E.time t.clk) / (nBench : ℚ)
  · left; rw [if_pos h]; exact ⟨h, rfl, rfl⟩
  · right; rw [if_neg h]; push Not at h; exact ⟨h, rfl, rfl⟩

theorem trials_opt_aux (E : Env V) (run : Mem V H R → Mem V H R) (l : List Int) (hl : ∀ b ∈ l, b ≠ 0)
    (t : Trial V H R) (ht : t.opt ≠ 0) :
    let t' := l.foldl (trial E run) t
    ((t'.opt = t.opt ∧ t'.minTime = t.minTime) ∨
      ∃ i, ∃ hi : i < l.length, t'.opt = l[i] ∧ t'.minTime = runTime E (t.clk + 2 * i)) ∧
    t'.minTime ≤ t.minTime ∧ ∀ i < l.length, t'.minTime ≤ runTime E (t.clk + 2 * i) := by
  induction l generalizing t with
  | nil => simp
  | cons b l ih =>
    intro t'
    have hb : b ≠ 0 := hl b List.mem_cons_self
    have hcl := (trial_mem E run t b).2
    have hne : (trial E run t b).opt ≠ 0 := by
      rcases trial_opt E run t b with ⟨-, h, -⟩ | ⟨h, h', -⟩
      · rw [h]; exact hb
      · rw [h']; exact h.1
    obtain ⟨i1, i2, i3⟩ := ih (fun x hx => hl x (List.mem_cons_of_mem _ hx)) (trial E run t b) hne
    have hfold : t' = l.foldl (trial E run) (trial E run t b) := rfl
    rw [← hfold] at i1 i2 i3
    rw [hcl] at i1 i3
    have key : (trial E run t b).minTime ≤ t.minTime ∧ (trial E run t b).minTime ≤ runTime E t.clk := by
      rcases trial_opt E run t b with ⟨h, -, h'⟩ | ⟨h, -, h'⟩
      · rw [h']; exact ⟨le_of_lt (h.resolve_left ht), le_refl _⟩
      · rw [h']; exact ⟨le_refl _, h.2⟩
    refine ⟨?_, le_trans i2 key.1, ?_⟩
    · rcases i1 with ⟨e1, e2⟩ | ⟨i, hi, e1, e2⟩
      · rcases trial_opt E run t b with ⟨-, h, h'⟩ | ⟨-, h, h'⟩
        · right
          exact ⟨0, by simp, by rw [e1, h]; rfl, by rw [e2, h']; rfl⟩
        · left; exact ⟨by rw [e1, h], by rw [e2, h']⟩
      · right
        refine ⟨i + 1, by simp; omega, by rw [e1]; rfl, ?_⟩
        rw [e2]; congr 1; omega
    · intro i hi
      cases i with
      | zero => exact le_trans i2 key.2
      | succ i =>
        have := i3 i (by simpa using hi)
        rw [show t.clk + 2 * (i + 1) = t.clk + 2 + 2 * i by omega]
        exact this

theorem trials_opt (E : Env V) (run : Mem V H R → Mem V H R) (l : List Int) (hl : ∀ b ∈ l, b ≠ 0) (hne : l ≠ [])
    (t : Trial V H R) (ht : t.opt = 0) :
    ∃ i, ∃ hi : i < l.length, (l.foldl (trial E run) t).opt = l[i] ∧
      ∀ j < l.length, runTime E (t.clk + 2 * i) ≤ runTime E (t.clk + 2 * j) := by
  cases l with
  | nil => exact absurd rfl hne
  | cons b l =>
    rcases trial_opt E run t b with ⟨-, h, h'⟩ | ⟨h, -, -⟩
    · have hcl := (trial_mem E run t b).2
      obtain ⟨i1, i2, i3⟩ := trials_opt_aux E run l (fun x hx => hl x (List.mem_cons_of_mem _ hx)) (trial E run t b)
        (by rw [h]; exact hl b List.mem_cons_self)
      rw [hcl] at i1 i3
      have fin : ∀ m, m = (l.foldl (trial E run) (trial E run t b)).minTime →
          ∀ j < (b :: l).length, m ≤ runTime E (t.clk + 2 * j) := by
        intro m hm j hj
        rw [hm]
        cases j with
        | zero => rw [h'] at i2; exact i2
        | succ j =>
          have := i3 j (by simpa using hj)
          rw [show t.clk + 2 * (j + 1) = t.clk + 2 + 2 * j by omega]
          exact this
      rcases i1 with ⟨e1, e2⟩ | ⟨i, hi, e1, e2⟩
      · refine ⟨0, by simp, by rw [List.foldl_cons, e1, h]; rfl, fun j hj => fin _ ?_ j hj⟩
        rw [e2, h']; rfl
      · refine ⟨i + 1, by simp; omega, by rw [List.foldl_cons, e1]; rfl, fun j hj => fin _ ?_ j hj⟩
        rw [e2]; congr 1; omega
    · exact absurd ht h.1

/-! ## Sizes tried -/

theorem mem_testSizes (n : Nat) (b max x : Int) (hb : 0 < b) :
    x ∈ testSizes n b max ↔ ∃ j < n, x = b * 2 ^ j ∧ x ≤ max := by
  induction n generalizing b with
  | zero => simp [testSizes]
  | succ n ih =>
    unfold testSizes
    constructor
    · intro h
      split at h
      · rcases List.mem_cons.1 h with rfl | h
        · exact ⟨0, by omega, by simp, by assumption⟩
        · obtain ⟨j, h1, h2, h3⟩ := (ih (2 * b) (by omega)).1 h
          exact ⟨j + 1, by omega, by rw [h2]; ring, h3⟩
      · simp at h
    · rintro ⟨j, h1, h2, h3⟩
      have hbm : b ≤ max := by
        have : (1 : Int) ≤ 2 ^ j := by exact_mod_cast Nat.one_le_two_pow
        have : b * 1 ≤ b * 2 ^ j := mul_le_mul_of_nonneg_left this (le_of_lt hb)
        omega
      rw [if_pos hbm]
      cases j with
      | zero => simp at h2; rw [h2]; exact List.mem_cons_self
      | succ j =>
        exact List.mem_cons_of_mem _ ((ih (2 * b) (by omega)).2 ⟨j, by omega, by rw [h2]; ring, h3⟩)

/-- The sizes tried are the powers of two not larger than the maximum. -/
theorem mem_sizes (M x : Int) : x ∈ testSizes (M.toNat + 1) 1 M ↔ ∃ j : Nat, x = 2 ^ j ∧ x ≤ M := by
  rw [mem_testSizes _ _ _ _ (by norm_num)]
  constructor
  · rintro ⟨j, -, h, h'⟩; exact ⟨j, by simpa using h, h'⟩
  · rintro ⟨j, h, h'⟩
    refine ⟨j, ?_, by simpa using h, h'⟩
    have : j < 2 ^ j := Nat.lt_two_pow_self
    have h2 : ((2 ^ j : Nat) : Int) ≤ M := by push_cast; rw [← h]; exact h'
    omega

theorem sizes_pos (M : Int) : ∀ b ∈ testSizes (M.toNat + 1) 1 M, 1 ≤ b ∧ b ≤ M := by
  intro b hb
  obtain ⟨j, rfl, h⟩ := (mem_sizes M b).1 hb
  exact ⟨by exact_mod_cast Nat.one_le_two_pow, h⟩

theorem sizes_ne (M : Int) (h : 1 < M) : testSizes (M.toNat + 1) 1 M ≠ [] := by
  intro h0
  have : (1 : Int) ∈ testSizes (M.toNat + 1) 1 M := (mem_sizes M 1).2 ⟨0, by simp, by omega⟩
  rw [h0] at this; simp at this

/-! ## Tables -/

/-- The block sizes known for a kernel can be used, except those of the kernel N. -/
def ValidOff (E : Env V) (N : String) (t : Table) : Prop :=
  ∀ nm l b, nm ≠ N → t.size nm l = some b → 1 ≤ b ∧ b ≤ E.nMax nm

theorem register_spec (name : String) (s : St V H R) :
    (register name s).mem = s.mem ∧ (register name s).table.size = s.table.size ∧
    (∀ x ∈ s.table.names, x ∈ (register name s).table.names) ∧ name ∈ (register name s).table.names ∧
    (register name s).doNotBackup = s.doNotBackup ∧ (register name s).begins = s.begins ∧
    (register name s).ends = s.ends ∧ (register name s).clk = s.clk ∧ (register name s).files = s.files ∧
    (name ∈ s.table.names → (register name s).gen = s.gen) := by
  unfold register
  by_cases h : name ∈ s.table.names
  · rw [if_pos h]
    exact ⟨rfl, rfl, fun x hx => hx, h, rfl, rfl, rfl, rfl, rfl, fun _ => rfl⟩
  · rw [if_neg h]
    dsimp only
    split <;>
      exact ⟨rfl, rfl, fun x hx => List.mem_append_left _ hx, List.mem_append_right _ (by simp), rfl, rfl, rfl, rfl,
        rfl, fun k => absurd k h⟩

theorem set_size (t : Table) (nm : String) (len b : Int) (n : String) (l : Int) :
    (t.set nm len b).size n l = if n = nm ∧ l = len then some b else t.size n l := rfl

/-- What a nested loop leaves as it was. -/
structure Step (E : Env V) (N : String) (F : Nat → Prop) (s s' : St V H R) : Prop where
  dnb : s'.doNotBackup = s.doNotBackup
  valid : ValidOff E N s.table → ValidOff E N s'.table
  names : ∀ x ∈ s.table.names, x ∈ s'.table.names
  sizeN : ∀ l, s'.table.size N l = s.table.size N l
  gen : (∀ f, F f → E.copyName f ∈ s.table.names) → s'.gen = s.gen

theorem Step.refl (E : Env V) (N) (F) (s : St V H R) : Step E N F s s :=
  ⟨rfl, fun h => h, fun _ h => h, fun _ => rfl, fun _ => rfl⟩

theorem Step.trans {E : Env V} {N} {F} {a b c : St V H R} (h : Step E N F a b) (k : Step E N F b c) : Step E N F a c :=
  ⟨k.dnb.trans h.dnb, fun x => k.valid (h.valid x), fun x hx => k.names x (h.names x hx),
    fun l => (k.sizeN l).trans (h.sizeN l),
    fun x => (k.gen (fun f hf => h.names _ (x f hf))).trans (h.gen x)⟩

theorem iterate_idem {α : Type} (f : α → α) (h : ∀ x, f (f x) = f x) (n : Nat) (x : α) : f (f^[n] x) = f x := by
  induction n with
  | zero => rfl
  | succ n ih => rw [Function.iterate_succ_apply', h, ih]

/-- A loop executed while no backup is done (the copy of a field): if doing it again changes nothing, it
does not matter whether it is tuned. -/
theorem parLoop_nb (E : Env V) (n : Nat) (L : Loop V H R) (s : St V H R) (hd : s.doNotBackup = true)
    (hid : ∀ m, L.run (L.run m) = L.run m) (hmax : 1 < E.nMax L.name) (hpos : 0 < L.len)
    (hval : ∀ b, s.table.size L.name L.len = some b → 1 ≤ b ∧ b ≤ E.nMax L.name) :
    ∃ s', parLoop E (n + 1) L s = .ok s' ∧ s'.mem = L.run s.mem ∧ s'.doNotBackup = true ∧
      (∀ nm l, ¬ (nm = L.name ∧ l = L.len) → s'.table.size nm l = s.table.size nm l) ∧
      (∃ b, s'.table.size L.name L.len = some b ∧ 1 ≤ b ∧ b ≤ E.nMax L.name) ∧
      (∀ x ∈ s.table.names, x ∈ s'.table.names) ∧ (L.name ∈ s.table.names → s'.gen = s.gen) ∧
      (s.table.size L.name L.len = none → ∃ F ∈ s'.files,
        ∀ nm l, ¬ (nm = L.name ∧ l = L.len) → F.size nm l = s.table.size nm l) := by
  obtain ⟨r1, r2, r3, r4, r5, r6, r7, r8, r9, r10⟩ :=
    register_spec L.name { s with begins := L.regs, ends := L.regs }
  unfold parLoop
  dsimp only
  rw [if_pos hpos, if_neg (by omega)]
  set s1 := register L.name { s with begins := L.regs, ends := L.regs } with hs1
  unfold getOptimalBlockSize
  rw [r2]
  cases hsz : s.table.size L.name L.len with
  | some b =>
    dsimp only
    have hb := hval b hsz
    rw [if_neg (by omega)]
    exact ⟨_, rfl, by rw [r1], r5.trans hd, fun nm l _ => by rw [r2], ⟨b, by rw [r2]; exact hsz, hb.1, hb.2⟩, r3, r10,
      fun h => by simp at h⟩
  | none =>
    dsimp only
    have hdn : s1.doNotBackup = true := r5.trans hd
    simp only [guarded, hdn, if_true]
    rw [if_neg (by omega)]
    simp only [ne_eq, not_true_eq_false, and_false, if_false]
    have ho := trials_opt E L.run _ (fun b hb => by have := sizes_pos (E.nMax L.name) b hb; omega)
      (sizes_ne _ hmax) ({ mem := s1.mem, clk := s1.clk, opt := 0, minTime := 0 } : Trial V H R) rfl
    obtain ⟨i, hi, ho, -⟩ := ho
    have hv := sizes_pos (E.nMax L.name) _ (List.getElem_mem hi)
    rw [← ho] at hv
    rw [if_neg (by omega)]
    refine ⟨_, rfl, ?_, rfl, ?_, ⟨_, ?_, hv.1, hv.2⟩, ?_, r10, ?_⟩
    · show L.run _ = _
      rw [(trials_mem E L.run _ _).1, iterate_idem _ hid]
      rw [r1]
    · intro nm l h
      simp only [set_size]
      rw [if_neg h, if_neg h, r2]
    · simp only [set_size]; simp
    · intro x hx; exact r3 x hx
    · intro _
      refine ⟨_, List.mem_cons_self, ?_⟩
      intro nm l h
      simp only [set_size]
      rw [if_neg h, if_neg h, r2]

theorem assign_spec (E : Env V) (n : Nat) (L : Loop V H R) (s : St V H R) (N : String) (F : Nat → Prop)
    (hN : L.name ≠ N) (hF : ∃ f, F f ∧ L.name = E.copyName f)
    (hid : ∀ m, L.run (L.run m) = L.run m) (hmax : 1 < E.nMax L.name) (hpos : 0 < L.len)
    (hval : ValidOff E N s.table) :
    ∃ s', assign (parLoop E (n + 1)) L s = .ok s' ∧ s'.mem = L.run s.mem ∧ Step E N F s s' ∧
      (s.table.size L.name L.len = none → ∃ T ∈ s'.files,
        ∀ nm l, ¬ (nm = L.name ∧ l = L.len) → T.size nm l = s.table.size nm l) := by
  obtain ⟨s', h1, h2, h3, h4, ⟨b, h5, h5', h5''⟩, h6, h7, h8⟩ :=
    parLoop_nb E n L { s with doNotBackup := true } rfl hid hmax hpos (fun b hb => hval _ _ _ hN hb)
  unfold assign
  rw [h1]
  refine ⟨_, rfl, h2, ⟨rfl, ?_, h6, ?_, ?_⟩, h8⟩
  · intro _ nm l b' hnm hsz
    by_cases hc : nm = L.name ∧ l = L.len
    · obtain ⟨rfl, rfl⟩ := hc
      have hsz' : s'.table.size L.name L.len = some b' := hsz
      rw [h5] at hsz'; cases hsz'
      exact ⟨h5', h5''⟩
    · have hsz' : s'.table.size nm l = some b' := hsz
      rw [h4 nm l hc] at hsz'
      exact hval nm l b' hnm hsz'
  · intro l
    exact h4 N l (fun h => hN h.1.symm)
  · intro h
    obtain ⟨f, hf, e⟩ := hF
    exact h7 (by rw [e]; exact h f hf)

end Nissa.Tune
