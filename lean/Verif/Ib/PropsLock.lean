import Verif.Ib.Lock

/-! # C66: jobs sharing the configurations -/

set_option linter.all false

namespace Nissa.Lock

variable {J : Type} [DecidableEq J] {T : Times}

/-- the job has the configuration -/
def Owns (s : State J) (j : J) : Prop := ∃ t ph, s.stage j = .running t ph

/-- the delays are well separated: the tag is written, after the test, in less time than the shortest load, and the longest load is shorter than the period of the update -/
structure Times.Good (T : Times) : Prop where
  write : T.writeDelay < T.loadMin
  load : T.loadMax < T.period

structure Inv (T : Times) (s : State J) : Prop where
  time : ∀ j, inTime T s.now (s.stage j)
  /-- the running file of the owner is its own, and is updated -/
  own : ∀ j t ph, s.stage j = .running t ph → t ≤ s.now ∧ ∃ m, s.file = some (j, m) ∧ m ≤ s.now ∧ t ≤ m + T.loadMax
  /-- nobody is going to write it -/
  quiet : ∀ j t ph, s.stage j = .running t ph → ∀ i u, s.stage i ≠ .accepted u
  /-- those going to write tested before the last writer wrote -/
  load : ∀ j t m, s.stage j = .loading t → s.file = some (j, m) → m = t ∧ ∀ i u, s.stage i = .accepted u → u ≤ t
  past : ∀ j t, s.stage j = .loading t ∨ s.stage j = .accepted t → t ≤ s.now
  count : s.completed = if s.finished then 1 else 0
  working : ∀ j t, s.stage j = .running t .working → s.finished = false

theorem recent_false {now m : Nat} (hp : T.period ≠ 0) : checkRunningIsRecent T now m = false ↔ 2 * T.period ≤ now - m := by
  unfold checkRunningIsRecent
  rw [if_neg hp]
  simp

theorem set_stage (s : State J) (j : J) (x : Stage) (i : J) : (s.set j x).stage i = if i = j then x else s.stage i := by
  unfold State.set
  simp [Function.update_apply]

theorem start_inv {s : State J} (h : Start s) : Inv T s := by
  obtain ⟨h1, h2, h3⟩ := h
  refine ⟨?_, ?_, ?_, ?_, ?_, ?_, ?_⟩
  · intro j; rcases h1 j with h | h <;> rw [h] <;> trivial
  · intro j t ph h'; rcases h1 j with h | h <;> rw [h] at h' <;> cases h'
  · intro j t ph h'; rcases h1 j with h | h <;> rw [h] at h' <;> cases h'
  · intro j t m h'; rcases h1 j with h | h <;> rw [h] at h' <;> cases h'
  · intro j t h'; rcases h1 j with h | h <;> rw [h] at h' <;> rcases h' with h' | h' <;> cases h'
  · rw [h2, h3]; rfl
  · intro j t h'; exact h2

/-- a job stops caring -/
theorem neutral {s : State J} (h : Inv T s) (j : J) (x : Stage) (hx : x = .idle ∨ x = .unfinished ∨ x = .dead) : Inv T (s.set j x) := by
  obtain ⟨I1, I2, I3, I4, I5, I6, I7⟩ := h
  have n1 : inTime T s.now x := by rcases hx with rfl | rfl | rfl <;> trivial
  have n2 : ∀ t ph, x ≠ .running t ph := by rcases hx with rfl | rfl | rfl <;> exact nofun
  have n3 : ∀ t, x ≠ .accepted t := by rcases hx with rfl | rfl | rfl <;> exact nofun
  have n4 : ∀ t, x ≠ .loading t := by rcases hx with rfl | rfl | rfl <;> exact nofun
  refine ⟨?_, ?_, ?_, ?_, ?_, I6, ?_⟩
  · intro i; rw [set_stage]; split; exact n1; exact I1 i
  · intro i t ph; rw [set_stage]; split; exact fun h => absurd h (n2 _ _); exact I2 i t ph
  · intro i t ph; rw [set_stage]; split; exact fun h => absurd h (n2 _ _); intro hi k u; rw [set_stage]; split; exact n3 _; exact I3 i t ph hi k u
  · intro i t m; rw [set_stage]; split; exact fun h => absurd h (n4 _)
    intro hi hm; refine ⟨(I4 i t m hi hm).1, fun k u => ?_⟩; rw [set_stage]; split; exact fun h => absurd h (n3 _); exact (I4 i t m hi hm).2 k u
  · intro i t; rw [set_stage]; split; exact fun h => absurd h (by rintro (h | h); exact n4 _ h; exact n3 _ h); exact I5 i t
  · intro i t; rw [set_stage]; split; exact fun h => absurd h (n2 _ _); exact I7 i t

theorem owner_unique {s : State J} (h : Inv T s) {i j : J} {t u : Nat} {p q : Phase} (hi : s.stage i = .running t p) (hj : s.stage j = .running u q) : i = j := by
  obtain ⟨-, m, hm, -⟩ := h.own i t p hi
  obtain ⟨-, m', hm', -⟩ := h.own j u q hj
  rw [hm] at hm'; simp at hm'; exact hm'.1

/-- the owner removes the running file -/
theorem removed {s : State J} (h : Inv T s) (j : J) (t : Nat) (ph : Phase) (hj : s.stage j = .running t ph) (x : Stage) (hx : x = .idle ∨ x = .unfinished ∨ x = .dead) :
    Inv T { s.set j x with file := none } := by
  have hn := neutral h j x hx
  have n2 : ∀ t ph, x ≠ .running t ph := by rcases hx with rfl | rfl | rfl <;> exact nofun
  have no : ∀ i t ph, (s.set j x).stage i ≠ .running t ph := by
    intro i u p hi
    rw [set_stage] at hi
    split at hi
    · exact n2 _ _ hi
    · rename_i hne; exact hne (owner_unique h hi hj)
  refine ⟨hn.time, ?_, ?_, ?_, hn.past, hn.count, hn.working⟩
  · intro i u p hi; exact absurd hi (no i u p)
  · intro i u p hi; exact absurd hi (no i u p)
  · intro i u m _ hm; cases hm

/-- the owner changes phase -/
theorem phase {s : State J} (h : Inv T s) (j : J) (t : Nat) (ph ph' : Phase) (hj : s.stage j = .running t ph) (f : Bool) (n : Nat) (hc : n = if f then 1 else 0)
    (hw : ph' = .working → f = false) (hf : ph' = .working ∨ f = true ∧ ph' = .ending) : Inv T { s.set j (.running t ph') with finished := f, completed := n } := by
  have hu : ∀ i u p, s.stage i = .running u p → i = j := fun i u p hi => owner_unique h hi hj
  obtain ⟨I1, I2, I3, I4, I5, I6, I7⟩ := h
  refine ⟨?_, ?_, ?_, ?_, ?_, hc, ?_⟩
  · intro i; show inTime T s.now ((s.set j _).stage i); rw [set_stage]; split; have := I1 j; rw [hj] at this; exact this; exact I1 i
  · intro i u p; show (s.set j _).stage i = _ → _; rw [set_stage]; split
    · rename_i e; subst e; intro e; cases e; exact I2 i t ph hj
    · exact I2 i u p
  · intro i u p; show (s.set j _).stage i = _ → _; intro _ k v
    show (s.set j _).stage k ≠ _; rw [set_stage]; split; exact nofun; exact I3 j t ph hj k v
  · intro i u m; show (s.set j _).stage i = _ → s.file = _ → _; rw [set_stage]; split; exact nofun
    intro hi hm; refine ⟨(I4 i u m hi hm).1, fun k v => ?_⟩; show (s.set j _).stage k = _ → _; rw [set_stage]; split; exact nofun; exact (I4 i u m hi hm).2 k v
  · intro i u; show (s.set j _).stage i = _ ∨ (s.set j _).stage i = _ → _; rw [set_stage]; split; rintro (h | h) <;> cases h; exact I5 i u
  · intro i u; show (s.set j _).stage i = _ → f = false; rw [set_stage]; split
    · intro e; cases e; exact hw rfl
    · rename_i hne; intro hi; exact absurd (hu i _ _ hi) hne

theorem step_inv (hT : T.Good) {s s' : State J} (h : Inv T s) (st : Step T s s') : Inv T s' := by
  have h0 : T.period ≠ 0 := by have := hT.load; omega
  have hI := h
  obtain ⟨I1, I2, I3, I4, I5, I6, I7⟩ := h
  cases st with
  | tick dt h =>
    refine ⟨h, ?_, I3, I4, ?_, I6, I7⟩
    · intro j t ph hj
      obtain ⟨h1, m, h2, h3, h4⟩ := I2 j t ph hj
      exact ⟨by show t ≤ s.now + dt; omega, m, h2, by show m ≤ s.now + dt; omega, h4⟩
    · intro j t hj; have := I5 j t hj; show t ≤ s.now + dt; omega
  | look j hj hf => exact neutral hI j _ (by simp)
  | accept j hj hf =>
    have noRun : ∀ i t ph, s.stage i ≠ .running t ph := by
      intro i t ph hi
      obtain ⟨h1, m, h2, h3, h4⟩ := I2 i t ph hi
      have := hf (i, m) (by rw [h2]; rfl)
      rw [recent_false h0] at this
      have h5 := I1 i
      rw [hi] at h5
      have := hT.load
      simp only [inTime] at h5
      omega
    have noLoad : ∀ i t m, s.stage i = .loading t → s.file ≠ some (i, m) := by
      intro i t m hi hm
      have := hf (i, m) (by rw [hm]; rfl)
      rw [recent_false h0] at this
      have h5 := I1 i
      rw [hi] at h5
      have := (I4 i t m hi hm).1
      have := hT.load
      simp only [inTime] at h5
      omega
    refine ⟨?_, ?_, ?_, ?_, ?_, I6, ?_⟩
    · intro i; rw [set_stage]; split; show s.now ≤ s.now + _; omega; exact I1 i
    · intro i t ph; rw [set_stage]; split; exact nofun; intro hi; exact absurd hi (noRun i t ph)
    · intro i t ph; rw [set_stage]; split; exact nofun; intro hi; exact absurd hi (noRun i t ph)
    · intro i t m; rw [set_stage]; split; exact nofun; intro hi hm; exact absurd hm (noLoad i t m hi)
    · intro i t; rw [set_stage]; split
      · rintro (h | h) <;> cases h; exact Nat.le_refl _
      · exact I5 i t
    · intro i t; rw [set_stage]; split; exact nofun; exact I7 i t
  | refuse j f hj hf hr => exact neutral hI j _ (by simp)
  | try_lock j t0 hj =>
    have noRun : ∀ i t ph, s.stage i ≠ .running t ph := fun i t ph hi => I3 i t ph hi j t0 hj
    refine ⟨?_, ?_, ?_, ?_, ?_, I6, ?_⟩
    · intro i; show inTime T s.now ((s.set j _).stage i); rw [set_stage]; split; show s.now ≤ s.now + _; omega; exact I1 i
    · intro i t ph; show (s.set j _).stage i = _ → _; rw [set_stage]; split; exact nofun; intro hi; exact absurd hi (noRun i t ph)
    · intro i t ph; show (s.set j _).stage i = _ → _; rw [set_stage]; split; exact nofun; intro hi; exact absurd hi (noRun i t ph)
    · intro i t m; show (s.set j _).stage i = _ → some (j, s.now) = some (i, m) → _
      intro hi hm
      simp only [Option.some.injEq, Prod.mk.injEq] at hm
      obtain ⟨rfl, rfl⟩ := hm
      rw [set_stage, if_pos rfl] at hi
      simp only [Stage.loading.injEq] at hi
      subst hi
      refine ⟨rfl, fun k u => ?_⟩
      show (s.set j _).stage k = _ → _
      rw [set_stage]; split; exact nofun
      exact fun hk => I5 k u (.inr hk)
    · intro i t; show (s.set j _).stage i = _ ∨ (s.set j _).stage i = _ → _; rw [set_stage]; split
      · rintro (h | h) <;> cases h; exact Nat.le_refl _
      · exact I5 i t
    · intro i t; show (s.set j _).stage i = _ → _; rw [set_stage]; split; exact nofun; exact I7 i t
  | won j t0 hj hl hf =>
    obtain ⟨m0, hm0⟩ : ∃ m, s.file = some (j, m) := by
      cases hs : s.file with
      | none => rw [hs] at hf; cases hf
      | some f => rw [hs] at hf; simp at hf; exact ⟨f.2, by rw [← hf]⟩
    have hm := I4 j t0 m0 hj hm0
    have hload := I1 j
    rw [hj] at hload
    simp only [inTime] at hload
    have noAcc : ∀ i u, s.stage i ≠ .accepted u := by
      intro i u hi
      have h1 := I1 i
      rw [hi] at h1
      have h2 := hm.2 i u hi
      have := hT.write
      simp only [inTime] at h1
      omega
    have hp := I5 j t0 (.inl hj)
    refine ⟨?_, ?_, ?_, ?_, ?_, I6, ?_⟩
    · intro i; rw [set_stage]; split; exact .inr (Nat.le_add_right _ _); exact I1 i
    · intro i t ph; rw [set_stage]; split
      · rename_i e; subst e; intro e; cases e
        exact ⟨Nat.le_refl _, m0, hm0, by show m0 ≤ s.now; omega, by omega⟩
      · exact I2 i t ph
    · intro i t ph _ k u; rw [set_stage]; split; exact nofun; exact noAcc k u
    · intro i t m; rw [set_stage]; split; exact nofun
      intro hi h'; refine ⟨(I4 i t m hi h').1, fun k u => ?_⟩; rw [set_stage]; split; exact nofun; exact (I4 i t m hi h').2 k u
    · intro i t; rw [set_stage]; split; rintro (h | h) <;> cases h; exact I5 i t
    · intro i t; rw [set_stage]; split; exact nofun; exact I7 i t
  | lost j t hj hl hf => exact neutral hI j _ (by simp)
  | enter j t hj hf =>
    have := phase hI j t _ .working hj s.finished s.completed I6 (fun _ => hf) (.inl rfl)
    exact this
  | leave j t hj hf => exact neutral hI j _ (by simp)
  | touch j t0 ph hj =>
    obtain ⟨h1, m0, h2, h3, h4⟩ := I2 j t0 ph hj
    refine ⟨?_, ?_, ?_, ?_, ?_, I6, ?_⟩
    · intro i; show inTime T s.now ((s.set j _).stage i); rw [set_stage]; split; exact .inr (Nat.le_add_right _ _); exact I1 i
    · intro i t p; show (s.set j _).stage i = _ → t ≤ s.now ∧ ∃ m, s.file.map _ = _ ∧ m ≤ s.now ∧ _; rw [set_stage]; split
      · rename_i e; subst e; intro e; cases e
        exact ⟨Nat.le_refl _, s.now, by rw [h2]; rfl, Nat.le_refl _, Nat.le_add_right _ _⟩
      · rename_i hne; intro hi; exact absurd (owner_unique hI hi hj) hne
    · intro i t p; show (s.set j _).stage i = _ → _; intro _ k u; show (s.set j _).stage k ≠ _; rw [set_stage]; split; exact nofun; exact I3 j t0 ph hj k u
    · intro i t m; show (s.set j _).stage i = _ → s.file.map _ = _ → _; rw [set_stage]; split; exact nofun
      rename_i hne; intro hi hm; rw [h2] at hm; simp at hm; exact absurd hm.1.symm hne
    · intro i t; show (s.set j _).stage i = _ ∨ (s.set j _).stage i = _ → _; rw [set_stage]; split; rintro (h | h) <;> cases h; exact I5 i t
    · intro i t; show (s.set j _).stage i = _ → s.finished = false; rw [set_stage]; split
      · intro e; cases e; exact I7 j t0 hj
      · exact I7 i t
  | finalize j t hj =>
    have := I7 j t hj
    rw [this] at I6
    exact phase hI j t _ .ending hj true (s.completed + 1) (by rw [I6]; rfl) nofun (.inr ⟨rfl, rfl⟩)
  | release j t ph hj hp => exact removed hI j t ph hj _ (by simp)
  | kill j => exact neutral hI j _ (by simp)
  | crash j t ph hj => exact removed hI j t ph hj _ (by simp)

theorem reach_inv (hT : T.Good) {s0 s : State J} (h0 : Start s0) (h : Reach T s0 s) : Inv T s := by
  induction h with
  | start => exact start_inv h0
  | step _ st ih => exact step_inv hT ih st

/-- **C66**.  Any number of jobs, in any order of their steps, some of them killed: as long as the delays are well separated, at most one at a time has the configuration. -/
theorem C66_exclusive (hT : T.Good) {s0 s : State J} (h0 : Start s0) (h : Reach T s0 s) {i j : J} (hi : Owns s i) (hj : Owns s j) : i = j := by
  obtain ⟨t, p, hi⟩ := hi
  obtain ⟨u, q, hj⟩ := hj
  exact owner_unique (reach_inv hT h0 h) hi hj

/-- **C66**.  With the same assumption the configuration is completed at most once, and exactly if the file `finished` is there. -/
theorem C66_once (hT : T.Good) {s0 s : State J} (h0 : Start s0) (h : Reach T s0 s) : s.completed ≤ 1 ∧ (s.finished = true ↔ s.completed = 1) := by
  have := (reach_inv hT h0 h).count
  rw [this]
  cases s.finished <;> simp

theorem Reach.trans {s0 s1 s2 : State J} (h : Reach T s0 s1) (h' : Reach T s1 s2) : Reach T s0 s2 := by
  induction h' with
  | start => exact h
  | step _ st ih => exact .step ih st

/-- **C66**.  A running file left by jobs that were killed does not block the configuration for ever: when nobody is at work on it, and it is not finished, an idle job can take it. -/
theorem C66_recovers (hT : T.Good) (hl : T.loadMin ≤ T.loadMax) {s : State J} (hs : ∀ i, s.stage i = .idle ∨ s.stage i = .unfinished ∨ s.stage i = .dead) (hf : s.finished = false) (j : J) (hj : s.stage j = .idle) :
    ∃ s', Reach T s s' ∧ ∃ t, s'.stage j = .running t .working := by
  have h0 : T.period ≠ 0 := by have := hT.load; omega
  obtain ⟨now, file, fin, comp, stage⟩ := s
  simp only at hs hf hj
  subst hf
  obtain ⟨D, hD⟩ : ∃ D, ∀ f ∈ file, checkRunningIsRecent T (now + D) f.2 = false := by
    cases file with
    | none => exact ⟨0, nofun⟩
    | some f => exact ⟨f.2 + 2 * T.period, by rintro _ ⟨⟩; rw [recent_false h0]; omega⟩
  let mk : Nat → Option (J × Nat) → Stage → State J := fun n f x => ⟨n, f, false, comp, Function.update stage j x⟩
  have e0 : (⟨now, file, false, comp, stage⟩ : State J) = mk now file .idle := by simp only [mk]; congr 1; rw [← hj]; simp
  have tick : ∀ n f x dt, inTime T (n + dt) x → Step T (mk n f x) (mk (n + dt) f x) := by
    intro n f x dt hx
    refine .tick (mk n f x) dt fun i => ?_
    simp only [mk, Function.update_apply]
    split
    · exact hx
    · rcases hs i with h | h | h <;> rw [h] <;> trivial
  have hup : ∀ n f x, (mk n f x).stage j = x := fun n f x => by simp [mk]
  have hset : ∀ n f x y, (mk n f x).set j y = mk n f y := fun n f x y => by simp [mk, State.set]
  rw [e0]
  have s1 := tick now file .idle D trivial
  have s2 : Step T (mk (now + D) file .idle) (mk (now + D) file .unfinished) := by
    have := Step.look (T := T) (mk (now + D) file .idle) j (hup _ _ _) rfl; rwa [hset] at this
  have s3 : Step T (mk (now + D) file .unfinished) (mk (now + D) file (.accepted (now + D))) := by
    have := Step.accept (T := T) (mk (now + D) file .unfinished) j (hup _ _ _) hD; rwa [hset] at this
  have s4 : Step T (mk (now + D) file (.accepted (now + D))) (mk (now + D) (some (j, now + D)) (.loading (now + D))) := by
    have := Step.try_lock (T := T) (mk (now + D) file (.accepted (now + D))) j _ (hup _ _ _); rw [hset] at this; exact this
  have s5 := tick (now + D) (some (j, now + D)) (.loading (now + D)) T.loadMin (by show _ ≤ _; omega)
  have s6 : Step T (mk (now + D + T.loadMin) (some (j, now + D)) (.loading (now + D))) (mk (now + D + T.loadMin) (some (j, now + D)) (.running (now + D + T.loadMin) .entering)) := by
    have := Step.won (T := T) (mk (now + D + T.loadMin) (some (j, now + D)) (.loading (now + D))) j _ (hup _ _ _) (Nat.le_refl _) rfl; rwa [hset] at this
  have s7 : Step T (mk (now + D + T.loadMin) (some (j, now + D)) (.running (now + D + T.loadMin) .entering)) (mk (now + D + T.loadMin) (some (j, now + D)) (.running (now + D + T.loadMin) .working)) := by
    have := Step.enter (T := T) (mk (now + D + T.loadMin) (some (j, now + D)) (.running (now + D + T.loadMin) .entering)) j _ (hup _ _ _) rfl; rwa [hset] at this
  exact ⟨_, .step (.step (.step (.step (.step (.step (.step .start s1) s2) s3) s4) s5) s6) s7, _, hup _ _ _⟩

/-! ### When the delays are not separated -/

/-- two jobs, nobody at work -/
def st0 : State Bool := ⟨0, none, false, 0, fun _ => .idle⟩

/-- the stages of two jobs -/
def two (n : Nat) (f : Option (Bool × Nat)) (x y : Stage) : State Bool := ⟨n, f, false, 0, fun b => if b then y else x⟩

theorem set_false (n : Nat) (f : Option (Bool × Nat)) (x y z : Stage) : (two n f x y).set false z = two n f z y := by
  unfold two State.set; congr 1; funext b; cases b <;> simp [Function.update_apply]

theorem set_true (n : Nat) (f : Option (Bool × Nat)) (x y z : Stage) : (two n f x y).set true z = two n f x z := by
  unfold two State.set; congr 1; funext b; cases b <;> simp [Function.update_apply]

theorem two_tick (T : Times) (n : Nat) (f : Option (Bool × Nat)) (x y : Stage) (dt : Nat) (hx : inTime T (n + dt) x) (hy : inTime T (n + dt) y) : Step T (two n f x y) (two (n + dt) f x y) :=
  .tick _ dt (by intro b; cases b; exact hx; exact hy)

/-- both jobs have found the configuration free, at the same time; both have it, after the load -/
theorem both (T : Times) (hl : T.loadMin ≤ T.loadMax) (hw : T.loadMin ≤ T.writeDelay) (hp : T.loadMin ≤ T.period) : ∃ s, Reach T st0 s ∧ ∀ b, ∃ t, s.stage b = .running t .working := by
  have e0 : st0 = two 0 none .idle .idle := by unfold st0 two; congr 1; funext b; cases b <;> rfl
  have L := T.loadMin
  have s1 : Step T (two 0 none .idle .idle) (two 0 none .unfinished .idle) := by have := Step.look (T := T) (two 0 none .idle .idle) false rfl rfl; rwa [set_false] at this
  have s2 : Step T (two 0 none .unfinished .idle) (two 0 none .unfinished .unfinished) := by have := Step.look (T := T) (two 0 none .unfinished .idle) true rfl rfl; rwa [set_true] at this
  have s3 : Step T (two 0 none .unfinished .unfinished) (two 0 none (.accepted 0) .unfinished) := by
    have := Step.accept (T := T) (two 0 none .unfinished .unfinished) false rfl nofun; rwa [set_false] at this
  have s4 : Step T (two 0 none (.accepted 0) .unfinished) (two 0 none (.accepted 0) (.accepted 0)) := by
    have := Step.accept (T := T) (two 0 none (.accepted 0) .unfinished) true rfl nofun; rwa [set_true] at this
  have s5 : Step T (two 0 none (.accepted 0) (.accepted 0)) (two 0 (some (false, 0)) (.loading 0) (.accepted 0)) := by
    have := Step.try_lock (T := T) (two 0 none (.accepted 0) (.accepted 0)) false 0 rfl; rw [set_false] at this; exact this
  have s6 := two_tick T 0 (some (false, 0)) (.loading 0) (.accepted 0) T.loadMin (by show _ ≤ _; omega) (by show _ ≤ _; omega)
  rw [Nat.zero_add] at s6
  have s7 : Step T (two T.loadMin (some (false, 0)) (.loading 0) (.accepted 0)) (two T.loadMin (some (false, 0)) (.running T.loadMin .entering) (.accepted 0)) := by
    have := Step.won (T := T) (two T.loadMin (some (false, 0)) (.loading 0) (.accepted 0)) false 0 rfl (by show 0 + T.loadMin ≤ T.loadMin; omega) rfl; rwa [set_false] at this
  have s8 : Step T (two T.loadMin (some (false, 0)) (.running T.loadMin .entering) (.accepted 0)) (two T.loadMin (some (false, 0)) (.running T.loadMin .working) (.accepted 0)) := by
    have := Step.enter (T := T) (two T.loadMin (some (false, 0)) (.running T.loadMin .entering) (.accepted 0)) false _ rfl rfl; rwa [set_false] at this
  have s9 : Step T (two T.loadMin (some (false, 0)) (.running T.loadMin .working) (.accepted 0)) (two T.loadMin (some (true, T.loadMin)) (.running T.loadMin .working) (.loading T.loadMin)) := by
    have := Step.try_lock (T := T) (two T.loadMin (some (false, 0)) (.running T.loadMin .working) (.accepted 0)) true 0 rfl; rw [set_true] at this; exact this
  have s10 := two_tick T T.loadMin (some (true, T.loadMin)) (.running T.loadMin .working) (.loading T.loadMin) T.loadMin (.inr (by omega)) (by show _ ≤ _; omega)
  have s11 : Step T (two (T.loadMin + T.loadMin) (some (true, T.loadMin)) (.running T.loadMin .working) (.loading T.loadMin))
      (two (T.loadMin + T.loadMin) (some (true, T.loadMin)) (.running T.loadMin .working) (.running (T.loadMin + T.loadMin) .entering)) := by
    have := Step.won (T := T) (two (T.loadMin + T.loadMin) (some (true, T.loadMin)) (.running T.loadMin .working) (.loading T.loadMin)) true _ rfl (Nat.le_refl _) rfl; rwa [set_true] at this
  have s12 : Step T (two (T.loadMin + T.loadMin) (some (true, T.loadMin)) (.running T.loadMin .working) (.running (T.loadMin + T.loadMin) .entering))
      (two (T.loadMin + T.loadMin) (some (true, T.loadMin)) (.running T.loadMin .working) (.running (T.loadMin + T.loadMin) .working)) := by
    have := Step.enter (T := T) (two (T.loadMin + T.loadMin) (some (true, T.loadMin)) (.running T.loadMin .working) (.running (T.loadMin + T.loadMin) .entering)) true _ rfl rfl; rwa [set_true] at this
  rw [e0]
  refine ⟨_, .step (.step (.step (.step (.step (.step (.step (.step (.step (.step (.step (.step .start s1) s2) s3) s4) s5) s6) s7) s8) s9) s10) s11) s12, ?_⟩
  intro b; cases b <;> exact ⟨_, rfl⟩

/-- **C66**.  If writing the tag after the test may take as long as the load of the configuration, two jobs may work on it together (the lock is not atomic): for every such set of times. -/
theorem C66_violated_slow_write (T : Times) (hl : T.loadMin ≤ T.loadMax) (hw : T.loadMin ≤ T.writeDelay) (hp : T.loadMin ≤ T.period) :
    ∃ s : State Bool, Reach T st0 s ∧ Start st0 ∧ Owns s false ∧ Owns s true := by
  obtain ⟨s, h, hb⟩ := both T hl hw hp
  refine ⟨s, h, ⟨fun _ => .inl rfl, rfl, rfl⟩, ?_, ?_⟩
  · obtain ⟨t, h⟩ := hb false; exact ⟨t, _, h⟩
  · obtain ⟨t, h⟩ := hb true; exact ⟨t, _, h⟩

/-- **C66**.  If the load may be as long as the period of the update, although the tag is written at once after the test: the time of the running file is not updated during the load, and it becomes old before the first
update, so that two jobs may work together.  It is so also without update (`RUNNING_UPDATE_TIME` zero). -/
theorem C66_violated_slow_load (T : Times) (hl : T.loadMin ≤ T.loadMax) (hp : T.period ≤ T.loadMax) (hm : T.loadMin ≤ T.period) :
    ∃ s : State Bool, Reach T st0 s ∧ Start st0 ∧ Owns s false ∧ Owns s true := by
  have e0 : st0 = two 0 none .idle .idle := by unfold st0 two; congr 1; funext b; cases b <;> rfl
  have old : checkRunningIsRecent T (T.period + T.period) 0 = false := by
    unfold checkRunningIsRecent; split; rfl; simp; omega
  have s1 : Step T (two 0 none .idle .idle) (two 0 none .unfinished .idle) := by have := Step.look (T := T) (two 0 none .idle .idle) false rfl rfl; rwa [set_false] at this
  have s3 : Step T (two 0 none .unfinished .idle) (two 0 none (.accepted 0) .idle) := by
    have := Step.accept (T := T) (two 0 none .unfinished .idle) false rfl nofun; rwa [set_false] at this
  have s5 : Step T (two 0 none (.accepted 0) .idle) (two 0 (some (false, 0)) (.loading 0) .idle) := by
    have := Step.try_lock (T := T) (two 0 none (.accepted 0) .idle) false 0 rfl; rw [set_false] at this; exact this
  have s6 := two_tick T 0 (some (false, 0)) (.loading 0) .idle T.period (by show _ ≤ _; omega) trivial
  rw [Nat.zero_add] at s6
  have s7 : Step T (two T.period (some (false, 0)) (.loading 0) .idle) (two T.period (some (false, 0)) (.running T.period .entering) .idle) := by
    have := Step.won (T := T) (two T.period (some (false, 0)) (.loading 0) .idle) false 0 rfl (by show 0 + T.loadMin ≤ T.period; omega) rfl; rwa [set_false] at this
  have s8 := two_tick T T.period (some (false, 0)) (.running T.period .entering) .idle T.period (.inr (Nat.le_refl _)) trivial
  generalize hN : T.period + T.period = N at *
  have s9 : Step T (two N (some (false, 0)) (.running T.period .entering) .idle) (two N (some (false, 0)) (.running T.period .entering) .unfinished) := by
    have := Step.look (T := T) (two N (some (false, 0)) (.running T.period .entering) .idle) true rfl rfl; rwa [set_true] at this
  have s10 : Step T (two N (some (false, 0)) (.running T.period .entering) .unfinished) (two N (some (false, 0)) (.running T.period .entering) (.accepted N)) := by
    have := Step.accept (T := T) (two N (some (false, 0)) (.running T.period .entering) .unfinished) true rfl (by rintro _ ⟨⟩; exact old); rwa [set_true] at this
  have s11 : Step T (two N (some (false, 0)) (.running T.period .entering) (.accepted N)) (two N (some (true, N)) (.running T.period .entering) (.loading N)) := by
    have := Step.try_lock (T := T) (two N (some (false, 0)) (.running T.period .entering) (.accepted N)) true _ rfl; rw [set_true] at this; exact this
  have s12 : Step T (two N (some (true, N)) (.running T.period .entering) (.loading N)) (two N (some (true, N)) (.running N .entering) (.loading N)) := by
    have := Step.touch (T := T) (two N (some (true, N)) (.running T.period .entering) (.loading N)) false _ _ rfl; rw [set_false] at this; exact this
  have s13 := two_tick T N (some (true, N)) (.running N .entering) (.loading N) T.loadMin (.inr (by omega)) (by show _ ≤ _; omega)
  have s14 : Step T (two (N + T.loadMin) (some (true, N)) (.running N .entering) (.loading N)) (two (N + T.loadMin) (some (true, N)) (.running N .entering) (.running (N + T.loadMin) .entering)) := by
    have := Step.won (T := T) (two (N + T.loadMin) (some (true, N)) (.running N .entering) (.loading N)) true _ rfl (Nat.le_refl _) rfl; rwa [set_true] at this
  rw [e0]
  refine ⟨_, .step (.step (.step (.step (.step (.step (.step (.step (.step (.step (.step (.step .start s1) s3) s5) s6) s7) s8) s9) s10) s11) s12) s13) s14, ⟨fun b => .inl (by cases b <;> rfl), rfl, rfl⟩, ?_, ?_⟩
  · exact ⟨_, _, rfl⟩
  · exact ⟨_, _, rfl⟩

/-- the default period of a minute, the tag written in at most 2 seconds, load from 5 to 50 seconds: the assumption is met -/
example : (Times.mk 60 2 5 50).Good := ⟨by decide, by decide⟩

/-- and a job does get the configuration, on which an old running file was left -/
example : ∃ s, Reach (Times.mk 60 2 5 50) (⟨1000, some (9, 990), false, 0, fun _ => .idle⟩ : State Nat) s ∧ Owns s 3 := by
  obtain ⟨s, h, t, ht⟩ := C66_recovers (T := Times.mk 60 2 5 50) ⟨by decide, by decide⟩ (by decide) (s := (⟨1000, some (9, 990), false, 0, fun _ => .idle⟩ : State Nat)) (fun _ => .inl rfl) rfl 3 rfl
  exact ⟨s, h, t, _, ht⟩

end Nissa.Lock
