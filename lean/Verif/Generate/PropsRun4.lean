import Verif.Generate.PropsRun3

set_option linter.all false

/-! C77: what a session of the generation program does. -/

namespace Nissa.Gen

variable {C A G L Line : Type}

/-- Generators at the beginning of a session: the seed of the file `seed_new` if there is, otherwise the
state saved with the configuration, otherwise the seed of the input; then the local generators are
started from the global one. -/
def startRnd (P : Prog C A G L Line) (seedNew : Option Int) (saved : Option G) : G × L :=
  let g := match seedNew with
    | some n => P.seedGlb n
    | none => saved.getD (P.seedGlb P.seed)
  ((P.seedLoc g).2, (P.seedLoc g).1)

/-- How a session starts: from the running configuration if the file is there, otherwise from scratch
(`created`). -/
def StartsFrom (P : Prog C A G L Line) (d : Disk C A G Line) (i0 : Int) (c : C) (a : A) (ρ : G × L)
    (created : Bool) : Prop :=
  (∃ f, d.confs P.path = some (.full f) ∧ c = f.conf ∧ i0 = f.itraj.getD 0 ∧ a = f.rat.getD P.noRat ∧
      ρ = startRnd P d.seedNew f.glb ∧ created = false) ∨
  (d.confs P.path = none ∧ i0 = 0 ∧ (c, ρ) = P.initial (startRnd P d.seedNew none) ∧ a = P.noRat ∧
      created = true)

theorem initRnd_quiet (P : Prog C A G L Line) (d : Disk C A G Line) (g : Option G) :
    ∀ a ∈ (initRnd P d g).1, (∀ p, Quiet p a) ∧ ∀ p, CQuiet p a := by
  intro a ha
  unfold initRnd at ha
  dsimp only at ha
  split at ha
  · rw [List.mem_singleton.1 ha]; exact ⟨fun p => trivial, fun p => trivial⟩
  · simp at ha

theorem initRnd_rnd (P : Prog C A G L Line) (d : Disk C A G Line) (g : Option G) :
    (initRnd P d g).2 = startRnd P d.seedNew g := by
  unfold initRnd startRnd
  cases d.seedNew <;> cases g <;> rfl

theorem initRun_spec (P : Prog C A G L Line) (d : Disk C A G Line) (ai) (s : Proc C A G L)
    (h : initRun P d = some (ai, s)) :
    StartsFrom P d s.itraj s.conf s.rat s.rnd s.created ∧ s.ntrajProd = 0 ∧ s.storedLast = false ∧
      s.maxTime = 0 ∧ ∀ a ∈ ai, (∀ p, Quiet p a) ∧ ∀ p, CQuiet p a := by
  unfold initRun at h
  split at h
  · cases h
  · rename_i f hf
    simp only [Option.some.injEq, Prod.mk.injEq] at h
    obtain ⟨h1, h2⟩ := h
    subst h2
    refine ⟨Or.inl ⟨f, hf, rfl, rfl, rfl, ?_, rfl⟩, rfl, rfl, rfl, ?_⟩
    · exact initRnd_rnd P d f.glb
    · rw [← h1]; exact initRnd_quiet P d f.glb
  · rename_i hf
    simp only [Option.some.injEq, Prod.mk.injEq] at h
    obtain ⟨h1, h2⟩ := h
    subst h2
    refine ⟨Or.inr ⟨hf, rfl, ?_, rfl, rfl⟩, rfl, rfl, rfl, ?_⟩
    · rw [← initRnd_rnd]
    · rw [← h1]; exact initRnd_quiet P d none

/-- The session unrolled: n iterations, the last check, the end. -/
theorem session_eq (P : Prog C A G L Line) (tInit : ℚ) (es : List Env) (d : Disk C A G Line)
    (o : Outcome C A G L Line) (h : session P tInit es d = some o) :
    ∃ ai s n, initRun P d = some (ai, s) ∧ n ≤ es.length ∧
      (∀ k (h : k < es.length), k < n →
        checkIfContinue P d.stop tInit es[k] (stateN P es s k) = ([], true)) ∧
      o.proc = stateN P es s n ∧
      ((o.ended = false ∧ n = es.length ∧ o.acts = ai ++ actsUpTo P es s n) ∨
       (o.ended = true ∧ ∃ h : n < es.length,
          (checkIfContinue P d.stop tInit es[n] (stateN P es s n)).2 = false ∧
          o.acts = ai ++ (actsUpTo P es s n ++
            (checkIfContinue P d.stop tInit es[n] (stateN P es s n)).1) ++ closeActs P (stateN P es s n))) := by
  unfold session at h
  cases hi : initRun P d with
  | none => rw [hi] at h; simp at h
  | some x =>
    obtain ⟨ai, s⟩ := x
    rw [hi] at h
    simp only [Option.map_some, Option.some.injEq] at h
    subst h
    obtain ⟨n, h1, h2, h3, h4⟩ := loop_eq P d.stop tInit es s
    refine ⟨ai, s, n, rfl, h1, h2, h3, ?_⟩
    rcases h4 with ⟨a, b, c⟩ | ⟨a, b, c, e⟩
    · left; refine ⟨a, b, ?_⟩
      simp only [a, c]; simp
    · right; refine ⟨a, b, c, ?_⟩
      simp only [a, e, h3]; simp

/-- The check only can create the file `stop`. -/
theorem check_quiet (P : Prog C A G L Line) (stop : Bool) (tInit : ℚ) (e : Env) (s : Proc C A G L) :
    ∀ a ∈ (checkIfContinue P stop tInit e s).1, (∀ p, Quiet p a) ∧ ∀ p, CQuiet p a := by
  intro a ha
  unfold checkIfContinue at ha
  split_ifs at ha <;> simp at ha
  subst ha
  exact ⟨fun p => trivial, fun p => trivial⟩

theorem check_true (P : Prog C A G L Line) (stop : Bool) (tInit : ℚ) (e : Env) (s : Proc C A G L)
    (h : (checkIfContinue P stop tInit e s).2 = true) :
    stop = false ∧ e.stop = false ∧ e.restart = false ∧ s.itraj < P.ntrajTot ∧ enoughTime P tInit e.tCheck s = true := by
  unfold checkIfContinue at h
  split_ifs at h with h1 h2 h3
  simp at h1
  exact ⟨h1.1, h1.2, by simpa using h2, by omega, h⟩

/-- Where the running configuration is up to date at the end of a session. -/
def SavedAtEnd (P : Prog C A G L Line) (i : Int) : Prop :=
  (P.storeRunning ≠ 0 ∧ P.storeRunning ∣ i) ∨ P.storeEach = 0 ∨ ¬ P.storeEach ∣ i

/-- The clauses of the result of a session, as seen on the disk. -/
structure Result (P : Prog C A G L Line) (d : Disk C A G Line) (o : Outcome C A G L Line)
    (i0 : Int) (n : Nat) (h : Chain C A G L) (created : Bool) : Prop where
  starts : StartsFrom P d i0 (h.c 0) (h.rat 0) (h.rnd 0) created
  steps : h.Steps P i0 n
  last : o.proc.conf = h.c n ∧ o.proc.itraj = i0 + n
  /-- the file of every measurement which owns its file has got the lines of each configuration for
  which it is due, in order, once -/
  texts : ∀ m, OwnsFile P m → ((applyAll o.acts d).texts m.path).getD [] =
    (if created = true ∧ 0 < n ∧ (0 < m.each ∧ m.after ≤ i0 + 1 ∧ m.each ∣ i0 + 1 - m.after) then []
      else (d.texts m.path).getD []) ++ expected m h i0 n
  /-- every multiple of `store_each` has been stored, other stored configurations are as before -/
  stored : (∀ i j, P.storePath i = P.storePath j → i = j) → ∀ i,
    (applyAll o.acts d).confs (P.storePath i) =
      if P.storeEach ≠ 0 ∧ P.storeEach ∣ i ∧ i0 < i ∧ i ≤ i0 + n then some (h.saved i0 (i - i0).toNat)
      else d.confs (P.storePath i)
  /-- if the program reaches its end the running configuration is the last one, unless the latter has
  been only stored -/
  running : o.ended = true → 0 < n → SavedAtEnd P (i0 + n) →
    (applyAll o.acts d).confs P.path = some (h.saved i0 n)
  /-- with no trajectory done, or if the process is killed between two trajectories, the running
  configuration is the last multiple of `store_running`, or the initial one -/
  lagging : (o.ended = false ∨ n = 0 ∨ ¬ SavedAtEnd P (i0 + n)) →
    ∃ j ≤ n, (∀ k, j < k → k ≤ n → ¬ (P.storeRunning ≠ 0 ∧ P.storeRunning ∣ i0 + k)) ∧
      ((j = 0 ∧ (applyAll o.acts d).confs P.path = d.confs P.path) ∨
       (0 < j ∧ P.storeRunning ≠ 0 ∧ P.storeRunning ∣ i0 + j ∧
        (applyAll o.acts d).confs P.path = some (h.saved i0 j)))

theorem storedLast_stateN (P : Prog C A G L Line) (hP : P.ntrajTot ≠ 0) (es) (s : Proc C A G L)
    (n : Nat) (hn : n ≤ es.length) (h0 : 0 < n) :
    (stateN P es s n).storedLast = true ↔ P.storeEach ≠ 0 ∧ P.storeEach ∣ s.itraj + n := by
  obtain ⟨k, rfl⟩ : ∃ k, n = k + 1 := ⟨n - 1, by omega⟩
  rw [stateN_succ P es s k (by omega), (body_conf P _ _ hP).2.2.2.2.2.1,
    (stateN_itraj P hP es s k (by omega)).1]
  push_cast
  rw [add_assoc]

/-- C77: a session is a piece of a Markov chain with consecutive ids which continues the running
configuration, and the disk tells it. -/
theorem C77_session (P : Prog C A G L Line) (hP : P.ntrajTot ≠ 0) (hp : ∀ i, P.storePath i ≠ P.path)
    (tInit : ℚ) (es : List Env) (d : Disk C A G Line) (o : Outcome C A G L Line)
    (h : session P tInit es d = some o) :
    ∃ i0 n h created, n ≤ es.length ∧ Result P d o i0 n h created := by
  obtain ⟨ai, s, n, hi, hn, hchk, hproc, hend⟩ := session_eq P tInit es d o h
  obtain ⟨hs1, hs2, hs3, -, hs4⟩ := initRun_spec P d ai s hi
  have hai_c : ∀ (d : Disk C A G Line) p, (applyAll ai d).confs p = d.confs p :=
    fun d p => confs_quiet (fun a ha => (hs4 a ha).2 p) d
  have hai_t : ∀ (d : Disk C A G Line) p, (applyAll ai d).texts p = d.texts p :=
    fun d p => texts_quiet (fun a ha => (hs4 a ha).1 p) d
  have hit := stateN_itraj P hP es s n hn
  -- effect on the disk
  have htext : ∀ p, (applyAll o.acts d).texts p = (applyAll (actsUpTo P es s n) (applyAll ai d)).texts p := by
    intro p
    rcases hend with ⟨-, -, ha⟩ | ⟨-, hlt, -, ha⟩
    · rw [ha, applyAll_append]
    · rw [ha, applyAll_append, applyAll_append, applyAll_append]
      have hc : ∀ d : Disk C A G Line, (applyAll (closeActs P (stateN P es s n)) d).texts p = d.texts p := by
        intro d; unfold closeActs; split <;> rfl
      rw [hc, texts_quiet (fun a ha => (check_quiet P d.stop tInit es[n] (stateN P es s n) a ha).1 p)]
  have hconf : ∀ p, (applyAll o.acts d).confs p =
      if o.ended = true ∧ (0 < n ∧ ¬ (P.storeEach ≠ 0 ∧ P.storeEach ∣ s.itraj + n)) ∧ p = P.path then
        some ((chainOf P es s).saved s.itraj n)
      else (applyAll (actsUpTo P es s n) (applyAll ai d)).confs p := by
    intro p
    rcases hend with ⟨he, -, ha⟩ | ⟨he, hlt, -, ha⟩
    · rw [ha, applyAll_append, he]; simp
    · rw [ha, applyAll_append, applyAll_append, applyAll_append]
      have hq := fun (d' : Disk C A G Line) => confs_quiet (d := d')
        (fun a ha => (check_quiet P d.stop tInit es[n] (stateN P es s n) a ha).2 p)
      unfold closeActs
      rw [hit.2, hs2, Nat.zero_add]
      by_cases hcond : 0 < n ∧ ¬ (P.storeEach ≠ 0 ∧ P.storeEach ∣ s.itraj + n)
      · have hsl : (stateN P es s n).storedLast = false := by
          rw [← Bool.not_eq_true, storedLast_stateN P hP es s n hn hcond.1]; exact hcond.2
        rw [hsl, if_pos (by simpa using hcond.1), confs_writeConf]
        by_cases hpp : p = P.path
        · rw [if_pos hpp, if_pos ⟨he, hcond, hpp⟩, record_stateN P hP es s n hn]
        · rw [if_neg hpp, if_neg (fun k => hpp k.2.2), hq]
      · have hno : ¬ ((!(stateN P es s n).storedLast && decide (n > 0)) = true) := by
          intro k
          simp only [Bool.and_eq_true, Bool.not_eq_true', decide_eq_true_eq] at k
          refine hcond ⟨k.2, ?_⟩
          rw [← storedLast_stateN P hP es s n hn k.2, k.1]; simp
        rw [if_neg hno, if_neg (fun k => hcond k.2.1), applyAll_nil, hq]
  refine ⟨s.itraj, n, chainOf P es s, s.created, hn, ?_, chainOf_steps P hP es s n hn, ?_, ?_, ?_, ?_, ?_⟩
  · have h0 : stateN P es s 0 = s := by simp [stateN]
    show StartsFrom P d s.itraj (stateN P es s 0).conf (stateN P es s 0).rat (stateN P es s 0).rnd s.created
    rw [h0]; exact hs1
  · rw [hproc]; exact ⟨rfl, hit.1⟩
  · intro m hm
    rw [htext, text_upTo P hP m hm es s _ n hn, hai_t]
  · intro hinj i
    rw [hconf, if_neg (fun k => hp _ k.2.2), stored_upTo P hP hp hinj es s _ n hn, hai_c]
  · intro he hn0 hsv
    rw [hconf]
    by_cases hcond : P.storeEach ≠ 0 ∧ P.storeEach ∣ s.itraj + n
    · rw [if_neg (fun k => k.2.1.2 hcond)]
      have hr : P.storeRunning ≠ 0 ∧ P.storeRunning ∣ s.itraj + n := by
        rcases hsv with h | h | h
        · exact h
        · exact absurd h hcond.1
        · exact absurd hcond.2 h
      obtain ⟨j, hj, hmax, hor⟩ := running_upTo P hP hp es s (applyAll ai d) n hn
      have hjn : j = n := by
        by_contra hne
        exact hmax n (by omega) (le_refl _) hr
      subst hjn
      rcases hor with ⟨h0, -⟩ | ⟨-, -, -, h⟩
      · omega
      · exact h
    · rw [if_pos ⟨he, ⟨hn0, hcond⟩, rfl⟩]
  · intro hcase
    have hnot : ¬ (o.ended = true ∧ (0 < n ∧ ¬ (P.storeEach ≠ 0 ∧ P.storeEach ∣ s.itraj + n)) ∧ P.path = P.path) := by
      rintro ⟨a, ⟨b, c⟩, -⟩
      rcases hcase with h | h | h
      · rw [a] at h; cases h
      · omega
      · apply h
        by_cases h0 : P.storeEach = 0
        · exact Or.inr (Or.inl h0)
        · exact Or.inr (Or.inr (fun hd => c ⟨h0, hd⟩))
    rw [hconf, if_neg hnot]
    obtain ⟨j, hj, hmax, hor⟩ := running_upTo P hP hp es s (applyAll ai d) n hn
    refine ⟨j, hj, hmax, ?_⟩
    rcases hor with ⟨h0, h⟩ | ⟨h0, h1, h2, h⟩
    · left; exact ⟨h0, by rw [h, hai_c]⟩
    · right; exact ⟨h0, h1, h2, h⟩

/-- C77: when the session is over and why.  It never goes beyond the requested trajectories, it always
ends if it is given the time to do it, and if it ends before there was a file `stop` or `restart` or no
time left. -/
theorem C77_stop (P : Prog C A G L Line) (hP : P.ntrajTot ≠ 0) (tInit : ℚ) (es : List Env)
    (d : Disk C A G Line) (o : Outcome C A G L Line) (h : session P tInit es d = some o)
    (i0 : Int) (c a ρ b) (hst : StartsFrom P d i0 c a ρ b) :
    o.proc.itraj ≤ max i0 P.ntrajTot ∧ i0 ≤ o.proc.itraj ∧
    (P.ntrajTot - i0 < es.length → 0 < es.length → o.ended = true) ∧
    (d.stop = true → o.proc.itraj = i0) ∧
    (o.ended = true → o.proc.itraj < P.ntrajTot → ∃ e ∈ es,
        d.stop = true ∨ e.stop = true ∨ e.restart = true ∨
        (i0 < o.proc.itraj ∧ ⌊(P.walltime - (e.tCheck - tInit)) / o.proc.maxTime⌋ < 2)) ∧
    (o.ended = true → (applyAll o.acts d).stop = true → d.stop = true ∨ P.ntrajTot ≤ o.proc.itraj) := by
  obtain ⟨ai, s, n, hi, hn, hchk, hproc, hend⟩ := session_eq P tInit es d o h
  obtain ⟨hs1, hs2, hs3, -, hs4⟩ := initRun_spec P d ai s hi
  have hii : s.itraj = i0 := by
    rcases hs1 with ⟨f, h1, -, h2, -⟩ | ⟨h1, h2, -⟩ <;> rcases hst with ⟨f', h3, -, h4, -⟩ | ⟨h3, h4, -⟩
    · rw [h1] at h3; cases h3; rw [h2, h4]
    · rw [h1] at h3; cases h3
    · rw [h1] at h3; cases h3
    · rw [h2, h4]
  have hit := stateN_itraj P hP es s n hn
  rw [hproc, hit.1, hii]
  have hlast : ∀ k, k < n → i0 + k < P.ntrajTot ∧ d.stop = false := by
    intro k hk
    have := check_true P d.stop tInit es[k] (stateN P es s k) (by rw [hchk k (by omega) hk])
    rw [(stateN_itraj P hP es s k (by omega)).1, hii] at this
    exact ⟨this.2.2.2.1, this.1⟩
  have hle : i0 + n ≤ max i0 P.ntrajTot := by
    rcases Nat.eq_zero_or_pos n with h0 | h0
    · subst h0; simp
    · have := (hlast (n-1) (by omega)).1
      have : i0 + n ≤ P.ntrajTot := by omega
      exact le_trans this (le_max_right _ _)
  refine ⟨hle, by omega, ?_, ?_, ?_, ?_⟩
  · intro hlen hpos
    rcases hend with ⟨-, hne, -⟩ | ⟨he, -⟩
    · exfalso
      have := (hlast (n-1) (by omega)).1
      omega
    · exact he
  · intro hs
    rcases Nat.eq_zero_or_pos n with h0 | h0
    · subst h0; simp
    · have := (hlast 0 h0).2; rw [hs] at this; cases this
  · intro he hlt
    rcases hend with ⟨he', -⟩ | ⟨-, hnl, hck, -⟩
    · rw [he'] at he; cases he
    · refine ⟨es[n], List.getElem_mem _, ?_⟩
      unfold checkIfContinue at hck
      split_ifs at hck with h1 h2 h3
      · simp at h1; rcases h1 with h1 | h1
        · exact Or.inl h1
        · exact Or.inr (Or.inl h1)
      · exact Or.inr (Or.inr (Or.inl h2))
      · rw [hit.1, hii] at h3; omega
      · unfold enoughTime at hck
        split_ifs at hck with h4
        rw [hit.2, hs2] at h4
        refine Or.inr (Or.inr (Or.inr ⟨by omega, ?_⟩))
        simpa using hck
  · intro he hst'
    by_contra hno
    push_neg at hno
    obtain ⟨hno1, hno2⟩ := hno
    have key : ∀ (l : List (Act C A G Line)) (d : Disk C A G Line), (∀ a ∈ l, a ≠ Act.touchStop) →
        (applyAll l d).stop = d.stop := by
      intro l
      induction l with
      | nil => intro d _; rfl
      | cons a l ih =>
        intro d hl
        rw [applyAll_cons, ih _ (fun b hb => hl b (List.mem_cons_of_mem _ hb))]
        have := hl a List.mem_cons_self
        cases a <;> first | rfl | exact absurd rfl this
    rcases hend with ⟨he', -⟩ | ⟨-, hnl, hck, ha⟩
    · rw [he'] at he; cases he
    · apply hno1
      rw [← key o.acts d ?_]; exact hst'
      intro x hx
      rw [ha] at hx
      simp only [List.mem_append] at hx
      rcases hx with (hx | hx | hx) | hx
      · unfold initRun at hi
        have : ∀ g, ∀ y ∈ (initRnd P d g).1, y ≠ Act.touchStop := by
          intro g y hy
          unfold initRnd at hy
          dsimp only at hy
          split at hy
          · rw [List.mem_singleton.1 hy]; simp
          · simp at hy
        split at hi
        · cases hi
        · simp only [Option.some.injEq, Prod.mk.injEq] at hi
          rw [← hi.1] at hx; exact this _ x hx
        · simp only [Option.some.injEq, Prod.mk.injEq] at hi
          rw [← hi.1] at hx; exact this _ x hx
      · obtain ⟨k, hk, hx⟩ := List.mem_flatMap.1 hx
        rw [List.mem_range] at hk
        rw [actsN_eq P es s k (by omega), body_acts] at hx
        simp only [List.mem_append] at hx
        rcases hx with (hx | hx) | hx
        · obtain ⟨q, hq⟩ := measurements_textOf _ _ _ _ _ _ _ hx
          intro hxx; rw [hxx] at hq; exact hq
        · split at hx
          · unfold writeConf at hx; simp at hx; rcases hx with rfl | rfl <;> simp
          · simp at hx
        · split at hx
          · unfold writeConf at hx; simp at hx; rcases hx with rfl | rfl <;> simp
          · simp at hx
      · unfold checkIfContinue at hx
        split_ifs at hx with h1 h2 h3 <;> simp at hx
        rw [hit.1, hii] at h3; omega
      · unfold closeActs at hx
        split at hx
        · unfold writeConf at hx; simp at hx; rcases hx with rfl | rfl <;> simp
        · simp at hx

end Nissa.Gen
