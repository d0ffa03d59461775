import Verif.Tune.PropsTuner3

set_option linter.all false

/-! C78: the block size chosen; kernels which do not register what they change; the file of the tuned kernels. -/

namespace Nissa.Tune

variable {V H R : Type}

/-! ## The size chosen -/

theorem testSizes_get (n : Nat) (b M : Int) (hb : 0 < b) (j : Nat) :
    (testSizes n b M)[j]? = if j < n ∧ b * 2 ^ j ≤ M then some (b * 2 ^ j) else none := by
  induction n generalizing b j with
  | zero => simp [testSizes]
  | succ n ih =>
    unfold testSizes
    by_cases h : b ≤ M
    · rw [if_pos h]
      cases j with
      | zero => simp [h]
      | succ j =>
        rw [List.getElem?_cons_succ, ih (2 * b) (by omega)]
        have e : 2 * b * 2 ^ j = b * 2 ^ (j + 1) := by ring
        rw [e]
        simp only [Nat.add_lt_add_iff_right]
    · rw [if_neg h]
      have h1 : ¬ (b * 2 ^ j ≤ M) := by
        have : (1 : Int) ≤ 2 ^ j := by exact_mod_cast Nat.one_le_two_pow
        have : b * 1 ≤ b * 2 ^ j := mul_le_mul_of_nonneg_left this (le_of_lt hb)
        omega
      rw [if_neg (fun k => h1 k.2)]; rfl

theorem sizes_get (M : Int) (j : Nat) :
    (testSizes (M.toNat + 1) 1 M)[j]? = if (2 : Int) ^ j ≤ M then some (2 ^ j) else none := by
  rw [testSizes_get _ _ _ (by norm_num)]
  rw [one_mul]
  have : (2 : Int) ^ j ≤ M → j < M.toNat + 1 := by
    intro h
    have : j < 2 ^ j := Nat.lt_two_pow_self
    have h2 : ((2 ^ j : Nat) : Int) ≤ M := by push_cast; exact h
    omega
  by_cases h : (2 : Int) ^ j ≤ M
  · rw [if_pos ⟨this h, h⟩, if_pos h]
  · rw [if_neg (fun k => h k.2), if_neg h]

theorem sizes_lt (M : Int) (j : Nat) : j < (testSizes (M.toNat + 1) 1 M).length ↔ (2 : Int) ^ j ≤ M := by
  have h := sizes_get M j
  by_cases hj : (2 : Int) ^ j ≤ M
  · rw [if_pos hj] at h
    exact ⟨fun _ => hj, fun _ => (List.getElem?_eq_some_iff.1 h).1⟩
  · rw [if_neg hj] at h
    have := List.getElem?_eq_none_iff.1 h
    exact ⟨fun k => absurd k (by omega), fun k => absurd k hj⟩

/-- C78: the size chosen by the tuner is the fastest.  All and only the powers of two not above the maximum
are tried, the j-th between two consecutive readings of the clock; the size chosen is one of them and no
other has taken less time. -/
theorem C78_optimal (E : Env V) (rec : Loop V H R → St V H R → Res V H R) (L : Loop V H R) (s s' : St V H R) (b : Int)
    (hsz : s.table.size L.name L.len = none) (h : getOptimalBlockSize E rec L s = .ok (b, s')) :
    ∃ c k : Nat, b = 2 ^ k ∧ b ≤ E.nMax L.name ∧
      ∀ j : Nat, (2 : Int) ^ j ≤ E.nMax L.name →
        E.time (c + 2 * k + 1) - E.time (c + 2 * k) ≤ E.time (c + 2 * j + 1) - E.time (c + 2 * j) := by
  unfold getOptimalBlockSize at h
  rw [hsz] at h
  dsimp only at h
  split at h
  · cases h
  rename_i s2 h2
  split at h
  · cases h
  rename_i hmax
  split at h
  · cases h
  rename_i s3 h3
  split at h
  · cases h
  injection h with h
  have hb := (Prod.mk.inj h).1
  obtain ⟨i, hi, ho, hmin⟩ := trials_opt E L.run _ (fun b hb => by have := sizes_pos (E.nMax L.name) b hb; omega)
    (sizes_ne _ (by omega)) ({ mem := s2.mem, clk := s2.clk, opt := 0, minTime := 0 } : Trial V H R) rfl
  have hi' := (sizes_lt (E.nMax L.name) i).1 hi
  have hg : (testSizes ((E.nMax L.name).toNat + 1) 1 (E.nMax L.name))[i] = 2 ^ i := by
    have := sizes_get (E.nMax L.name) i
    rw [if_pos hi', List.getElem?_eq_getElem hi] at this
    exact Option.some.inj this
  refine ⟨s2.clk, i, by rw [← hb, ho, hg], by rw [← hb, ho, hg]; exact hi', ?_⟩
  intro j hj
  have := hmin j ((sizes_lt _ j).2 hj)
  unfold runTime at this
  have hp : (0 : ℚ) < (nBench : ℚ) := by norm_num [nBench]
  exact (div_le_div_iff_of_pos_right hp).1 this

/-! ## Kernels which do not register the generators -/

theorem iterate_rng {L : Loop V H R} {adv : R → R} (h : ∀ m, (L.run m).rng = adv m.rng) (k : Nat) (m : Mem V H R) :
    (L.run^[k] m).rng = adv^[k] m.rng := by
  induction k generalizing m with
  | zero => rfl
  | succ k ih => rw [Function.iterate_succ_apply, Function.iterate_succ_apply, ih, h]

/-- C78, violated: a kernel which draws random numbers without having registered the generators
(`generate_hot_eo_conf`, `/repo/src/operations/gaugeconf.cpp:200-217`), the first time it is run with a given
length, leaves the generators advanced by all the launches of the trials, and not by one: 101 for each block
size tried and the last one, from which its result is taken. -/
theorem C78_violated_unregistered (E : Env V) (n : Nat) (L : Loop V H R) (s : St V H R) (hd : s.doNotBackup = false)
    (hmax : 1 < E.nMax L.name) (hval : ∀ nm l b, s.table.size nm l = some b → 1 ≤ b ∧ b ≤ E.nMax nm)
    (hr : Regs E L.name L.regs) (hnd : L.regs.Nodup)
    (hbk : ∀ m, (L.run m).backup = m.backup ∧ (L.run m).backupRng = m.backupRng) (hlen : 0 < L.len)
    (hinfo : E.verbose = false ∨ ∀ f, Act.field f ∈ L.regs → E.copyName f ∈ s.table.names)
    (adv : R → R) (hadv : ∀ m, (L.run m).rng = adv m.rng) (hno : Act.rng ∉ L.regs)
    (hsz : s.table.size L.name L.len = none) :
    ∃ s', parLoop E (n + 2) L s = .ok s' ∧ s'.mem.rng = adv^[101 * nSizes E L.name + 1] s.mem.rng := by
  obtain ⟨s', m2, m3, h1, h2, ⟨h3, h4, h5⟩, h6, h7, h8, h9, h10, h11⟩ :=
    tuned_spec E n L s hd hmax hval hr hnd hbk hlen hinfo hsz
  refine ⟨s', h1, ?_⟩
  rw [h2, hadv, h8, if_neg hno, iterate_rng hadv, h5, ← Function.iterate_succ_apply' adv]
  rfl

/-- The number of block sizes tried is that of the powers of two not above the maximum. -/
theorem nSizes_spec (E : Env V) (name : String) (k : Nat) : k < nSizes E name ↔ (2 : Int) ^ k ≤ E.nMax name :=
  sizes_lt _ _

/-- The same kernel, if it has already been tuned with that length, advances the generators once. -/
theorem C78_tuned_already (E : Env V) (n : Nat) (L : Loop V H R) (s : St V H R) (hlen : 0 < L.len) (b : Int)
    (hsz : s.table.size L.name L.len = some b) (hb : 1 ≤ b ∧ b ≤ E.nMax L.name) :
    ∃ s', parLoop E (n + 1) L s = .ok s' ∧ s'.mem = L.run s.mem := by
  obtain ⟨r1, r2, r3, r4, r5, r6, r7, r8, r9, r10⟩ :=
    register_spec L.name { s with begins := L.regs, ends := L.regs }
  unfold parLoop
  dsimp only
  rw [if_pos hlen, if_neg (by omega)]
  unfold getOptimalBlockSize
  rw [r2, hsz]
  dsimp only
  rw [if_neg (by omega)]
  exact ⟨_, rfl, by rw [r1]⟩

/-! ## The file of the tuned kernels -/

/-- C78, violated: if the file of the tuned kernels holds, for a loop, a size which this device does not
accept (0, or the one found on another device), that loop always stops the program: it is never tuned
again. -/
theorem C78_violated_bad_size (E : Env V) (n : Nat) (L : Loop V H R) (m : Mem V H R) (T : Table) (hlen : 0 < L.len) (b : Int)
    (hsz : T.size L.name L.len = some b) (hb : b ≤ 0 ∨ E.nMax L.name < b) :
    parLoop E (n + 1) L (restart m (some T)) = .error .crash := by
  obtain ⟨r1, r2, r3, r4, r5, r6, r7, r8, r9, r10⟩ :=
    register_spec L.name { restart m (some T) with begins := L.regs, ends := L.regs }
  unfold parLoop
  dsimp only
  rw [if_pos hlen]
  split
  · rfl
  unfold getOptimalBlockSize
  rw [r2]
  have : (restart m (some T)).table.size L.name L.len = some b := hsz
  rw [show ({ restart m (some T) with begins := L.regs, ends := L.regs } : St V H R).table.size L.name L.len = some b from hsz]
  dsimp only
  rw [if_pos (by omega)]

/-! ## Concrete runs -/

namespace Toy

/-- A device with blocks of up to 4 threads; the copies of the fields have their own kernel. -/
def E : Env Nat where
  time c := (c * c : Nat)
  nMax _ := 4
  copyName _ := "copy"
  copyLen _ := 6
  junk := 77
  verbose := false

/-- Memory at the beginning. -/
def m0 : Mem Nat Nat Nat where
  bulk f := 10 + f
  halo f := 20 + f
  rng := 3
  backup _ := none
  backupRng := none

/-- A kernel which adds a random number to field 0. -/
def addRnd (regs : List Act) : Loop Nat Nat Nat where
  name := "addRnd"
  len := 8
  regs := regs
  run m := { m with bulk := Function.update m.bulk 0 (m.bulk 0 + m.rng), rng := m.rng + 1 }

/-- What can be compared of the result. -/
def view : Res Nat Nat Nat → Option (Nat × Nat × Nat × Nat)
  | .ok s => some (s.mem.bulk 0, s.mem.bulk 1, s.mem.rng, s.clk)
  | .error _ => none

theorem regs_ok : Regs E "addRnd" [Act.field 0, Act.rng] := by
  refine ⟨by simp, fun f _ => by simp [E], fun f _ => by simp [E], fun f _ => by simp [E]⟩

theorem covered_ok : Covered (addRnd [.field 0, .rng]) := by
  refine ⟨?_, fun _ _ _ => rfl, fun h => absurd h (by simp [addRnd]), fun _ => ⟨rfl, rfl⟩, ?_⟩
  · intro m f hf
    have : f ≠ 0 := by rintro rfl; exact hf (by simp [addRnd])
    simp [addRnd, Function.update_of_ne this]
  · rintro m m' ⟨h1, h2, h3⟩
    refine ⟨by simp [addRnd, h1, h2], by simp [addRnd, h2], h3⟩

/-- The hypotheses of `C78_tuning` are met by a kernel which registers what it changes, at the first launch
of the program. -/
example : ∃ s', parLoop E 2 (addRnd [.field 0, .rng]) (restart m0 none) = .ok s' ∧
      Same (fun f => Act.field f ∈ (addRnd [.field 0, .rng]).regs) s'.mem ((addRnd [.field 0, .rng]).run m0) ∧
      s'.doNotBackup = false ∧ (∃ b, s'.table.size "addRnd" 8 = some b) ∧
      (∀ nm l b, s'.table.size nm l = some b → 1 ≤ b ∧ b ≤ E.nMax nm) :=
  C78_tuning E 0 (addRnd [.field 0, .rng]) (restart m0 none) rfl (by decide) (by intro nm l b h; simp [restart] at h)
    regs_ok (by decide) covered_ok (by decide) (Or.inl rfl)

/-- Indeed: 13 and one number drawn; the kernel has been timed with 3 sizes, that which copies too. -/
example : view (parLoop E 2 (addRnd [.field 0, .rng]) (restart m0 none)) = some (13, 11, 4, 12) := by
  decide +kernel

/-- C78, violated: as the hot start does, the generators not being registered: the first launch of a run
adds another number, and the generators have been advanced 304 times instead of one. -/
theorem C78_violated_hot :
    view (parLoop E 2 (addRnd [.field 0]) (restart m0 none)) = some (10 + (3 + 303), 11, 3 + 304, 12) ∧
    view (parLoop E 2 (addRnd [.field 0]) (restart m0 (some { names := ["addRnd"], size := fun _ _ => some 1 }))) =
      some (10 + 3, 11, 3 + 1, 0) := by
  decide +kernel

/-- Number of sizes of a device with up to 1024 threads per block: the generators of a hot start are
advanced 1112 times. -/
example : 101 * nSizes { E with nMax := fun _ => 1024 } "addRnd" + 1 = 1112 := by decide +kernel

/-- C78, violated: while a kernel is being tuned, the copy of its field is tuned too and the file written
holds size 0 for the first one.  If the program is killed before the end of the tuning, from the next session
on that kernel always stops the program. -/
theorem C78_violated_killed :
    ∃ s, parLoop E 2 (addRnd [.field 0, .rng]) (restart m0 none) = .ok s ∧
      ∃ T ∈ s.files, T.size "addRnd" 8 = some 0 ∧
        ∀ n m, parLoop E (n + 1) (addRnd [.field 0, .rng]) (restart m (some T)) = .error .crash := by
  have h : (match parLoop E 2 (addRnd [.field 0, .rng]) (restart m0 none) with
    | .ok s => s.files.any fun T => decide (T.size "addRnd" 8 = some 0)
    | .error _ => false) = true := by decide +kernel
  split at h
  · rename_i s hs
    rw [List.any_eq_true] at h
    obtain ⟨T, hT, h0⟩ := h
    rw [decide_eq_true_iff] at h0
    exact ⟨s, hs, T, hT, h0, fun n m => C78_violated_bad_size E n _ m T (by decide) 0 h0 (Or.inl (le_refl _))⟩
  · cases h

/-- Whether the result is undefined behaviour. -/
def isUb : Res Nat Nat Nat → Bool
  | .error .ub => true
  | _ => false

/-- C78, violated: if the messages of the tuner are printed, at the first loop of the program on a field the
kernel that makes the copy is added to the vector of the kernels, which is moved: the name of the loop is then
read through a dangling reference. -/
theorem C78_violated_dangling :
    isUb (parLoop { E with verbose := true } 2 (addRnd [.field 0, .rng]) (restart m0 none)) = true := by
  decide +kernel

/-- C78, violated: a field asked twice by the same kernel is restored twice, the second time from a copy
already deleted. -/
theorem C78_violated_twice :
    isUb (parLoop E 2 (addRnd [.field 0, .field 0, .rng]) (restart m0 none)) = true := by
  decide +kernel

end Toy

end Nissa.Tune
