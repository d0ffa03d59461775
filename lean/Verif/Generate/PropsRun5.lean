import Verif.Generate.PropsRun4

set_option linter.all false

/-! C77: many sessions one after the other. -/

namespace Nissa.Gen

variable {C A G L Line : Type}

/-- The ids of the chain are consecutive and each configuration comes from the previous one; nothing is
said on the random numbers (they are restarted at the beginning of each session). -/
def Chain.Moves (P : Prog C A G L Line) (i0 : Int) (n : Nat) (h : Chain C A G L) : Prop :=
  ∀ k < n, ∃ ρ, P.update (i0 + k) (h.c k) (h.rat k) (h.rnd k) = (h.c (k + 1), h.rat (k + 1), ρ, h.acc (k + 1))

/-- A history of sessions: before each of them someone can create or delete the files `stop` and
`seed_new`; each session reaches its end and leaves an up-to-date running configuration. -/
inductive Hist (P : Prog C A G L Line) : Disk C A G Line → Disk C A G Line → Prop
  | nil (d) : Hist P d d
  | cons (d d1 d2 : Disk C A G Line) (t es o) : d1.confs = d.confs → d1.texts = d.texts →
      session P t es d1 = some o → o.ended = true → SavedAtEnd P o.proc.itraj →
      Hist P (applyAll o.acts d1) d2 → Hist P d d2

/-- One chain after the other. -/
def Chain.glue (h1 : Chain C A G L) (n1 : Nat) (h2 : Chain C A G L) : Chain C A G L where
  c k := if k ≤ n1 then h1.c k else h2.c (k - n1)
  rat k := if k ≤ n1 then h1.rat k else h2.rat (k - n1)
  rnd k := if k < n1 then h1.rnd k else h2.rnd (k - n1)
  acc k := if k ≤ n1 then h1.acc k else h2.acc (k - n1)

theorem glue_moves (P : Prog C A G L Line) (i0 : Int) (h1 h2 : Chain C A G L) (n1 n2 : Nat)
    (hm1 : h1.Moves P i0 n1) (hm2 : h2.Moves P (i0 + n1) n2) (hc : h2.c 0 = h1.c n1)
    (hr : h2.rat 0 = h1.rat n1) : (h1.glue n1 h2).Moves P i0 (n1 + n2) := by
  intro k hk
  rcases Nat.lt_or_ge k n1 with hlt | hge
  · obtain ⟨ρ, h⟩ := hm1 k hlt
    refine ⟨ρ, ?_⟩
    simp only [Chain.glue, if_pos (show k ≤ n1 by omega), if_pos (show k + 1 ≤ n1 by omega), if_pos hlt]
    exact h
  · obtain ⟨ρ, h⟩ := hm2 (k - n1) (by omega)
    refine ⟨ρ, ?_⟩
    have e1 : i0 + (n1 : Int) + ((k - n1 : Nat) : Int) = i0 + k := by omega
    have e2 : k - n1 + 1 = k + 1 - n1 := by omega
    rw [e1, e2] at h
    have c1 : (h1.glue n1 h2).c k = h2.c (k - n1) := by
      simp only [Chain.glue]
      split
      · have : k = n1 := by omega
        subst this; rw [← hc]; simp
      · rfl
    have c2 : (h1.glue n1 h2).rat k = h2.rat (k - n1) := by
      simp only [Chain.glue]
      split
      · have : k = n1 := by omega
        subst this; rw [← hr]; simp
      · rfl
    rw [c1, c2]
    simp only [Chain.glue, if_neg (show ¬ k + 1 ≤ n1 by omega), if_neg (show ¬ k < n1 by omega)]
    exact h

theorem glue_expected (m : GMeas C Line) (i0 : Int) (h1 h2 : Chain C A G L) (n1 n2 : Nat) :
    expected m (h1.glue n1 h2) i0 (n1 + n2) = expected m h1 i0 n1 ++ expected m h2 (i0 + n1) n2 := by
  have h0 : ∀ n ≤ n1, expected m (h1.glue n1 h2) i0 n = expected m h1 i0 n := by
    intro n hn
    induction n with
    | zero => rfl
    | succ n ih =>
      rw [expected_succ, expected_succ, ih (by omega)]
      simp only [Chain.glue, if_pos hn]
  induction n2 with
  | zero => rw [Nat.add_zero, h0 n1 (le_refl _)]; simp [expected]
  | succ n ih =>
    rw [← Nat.add_assoc, expected_succ, ih, expected_succ m h2, List.append_assoc]
    simp only [Chain.glue, if_neg (show ¬ n1 + n + 1 ≤ n1 by omega)]
    have e1 : n1 + n + 1 - n1 = n + 1 := by omega
    have e2 : i0 + ((n1 + n : Nat) : Int) + 1 = i0 + n1 + n + 1 := by push_cast; omega
    rw [e1, e2]

theorem Result.moves {P : Prog C A G L Line} {d o i0 n h c} (r : Result P d o i0 n h c) :
    Chain.Moves P i0 n h := by
  intro k hk
  obtain ⟨ρ, hρ, -⟩ := r.steps k hk
  exact ⟨ρ, hρ⟩

/-- C77: any number of sessions, each stopped for whatever reason and each with an up-to-date running
configuration at its end, make a single chain of configurations with consecutive ids, and each
measurement has got in its file, once and in order, the lines of each configuration for which it was due. -/
theorem C77_history (P : Prog C A G L Line) (hP : P.ntrajTot ≠ 0) (hp : ∀ i, P.storePath i ≠ P.path)
    (d d' : Disk C A G Line) (H : Hist P d d') (c : C) (i0 : Int) (a : A) (g : Option G)
    (hf : d.confs P.path = some (.full { conf := c, itraj := some i0, rat := some a, glb := g })) :
    ∃ N h g', h.c 0 = c ∧ h.rat 0 = a ∧ Chain.Moves P i0 N h ∧
      d'.confs P.path = some (.full { conf := h.c N, itraj := some (i0 + N), rat := some (h.rat N), glb := g' }) ∧
      ∀ m, OwnsFile P m → (d'.texts m.path).getD [] = (d.texts m.path).getD [] ++ expected m h i0 N := by
  induction H generalizing c i0 a g with
  | nil d =>
    refine ⟨0, ⟨fun _ => c, fun _ => a, fun _ => startRnd P none g, fun _ => 1⟩, g, rfl, rfl,
      fun k hk => absurd hk (by omega), by simpa using hf, ?_⟩
    intro m _; simp [expected]
  | cons d d1 d2 t es o hc ht hs he hsv H ih =>
    obtain ⟨i1, n, h, cr, -, r⟩ := C77_session P hP hp t es d1 o hs
    have hf1 : d1.confs P.path = some (.full { conf := c, itraj := some i0, rat := some a, glb := g }) := by
      rw [hc]; exact hf
    obtain ⟨e1, e2, e3, e4⟩ : i1 = i0 ∧ h.c 0 = c ∧ h.rat 0 = a ∧ cr = false := by
      rcases r.starts with ⟨f, h1, h2, h3, h4, h5, h6⟩ | ⟨h1, -⟩
      · rw [hf1] at h1; cases h1; exact ⟨h3, h2, h4, h6⟩
      · rw [hf1] at h1; cases h1
    subst e1
    have htx : ∀ m, OwnsFile P m → ((applyAll o.acts d1).texts m.path).getD [] =
        (d.texts m.path).getD [] ++ expected m h i1 n := by
      intro m hm
      rw [r.texts m hm, if_neg (by rw [e4]; simp), ht]
    rcases Nat.eq_zero_or_pos n with h0 | h0
    · subst h0
      have hun : (applyAll o.acts d1).confs P.path = some (.full { conf := c, itraj := some i1, rat := some a, glb := g }) := by
        obtain ⟨j, hj, -, hor⟩ := r.lagging (Or.inr (Or.inl rfl))
        rcases hor with ⟨-, h⟩ | ⟨h, -⟩
        · rw [h, hf1]
        · omega
      obtain ⟨N, h', g', a1, a2, a3, a4, a5⟩ := ih c i1 a g hun
      refine ⟨N, h', g', a1, a2, a3, a4, ?_⟩
      intro m hm
      rw [a5 m hm, htx m hm]; simp [expected]
    · rw [r.last.2] at hsv
      have hrun := r.running he h0 hsv
      obtain ⟨N, h', g', a1, a2, a3, a4, a5⟩ := ih _ _ _ _ hrun
      have hgN : 0 < N → (h.glue n h').c (n + N) = h'.c N ∧ (h.glue n h').rat (n + N) = h'.rat N := by
        intro hN
        simp only [Chain.glue, if_neg (show ¬ n + N ≤ n by omega)]
        rw [Nat.add_sub_cancel_left]; exact ⟨rfl, rfl⟩
      have hg0 : (h.glue n h').c n = h'.c 0 ∧ (h.glue n h').rat n = h'.rat 0 := by
        simp only [Chain.glue, if_pos (le_refl n), a1, a2, and_self]
      have hg : (h.glue n h').c (n + N) = h'.c N ∧ (h.glue n h').rat (n + N) = h'.rat N := by
        rcases Nat.eq_zero_or_pos N with h1 | h1
        · subst h1; exact hg0
        · exact hgN h1
      refine ⟨n + N, h.glue n h', g', ?_, ?_, glue_moves P i1 h h' n N r.moves a3 a1 a2, ?_, ?_⟩
      · simp only [Chain.glue]; rw [if_pos (by omega), e2]
      · simp only [Chain.glue]; rw [if_pos (by omega), e3]
      · rw [hg.1, hg.2, a4]
        congr 4
        push_cast; omega
      · intro m hm
        rw [a5 m hm, htx m hm, glue_expected, List.append_assoc]

/-- C77: the same starting from scratch, with no file of a previous run. -/
theorem C77_history_scratch (P : Prog C A G L Line) (hP : P.ntrajTot ≠ 0) (hp : ∀ i, P.storePath i ≠ P.path)
    (d d' : Disk C A G Line) (t es o) (hd : d.confs P.path = none) (hdt : ∀ p, d.texts p = none)
    (hs : session P t es d = some o) (he : o.ended = true) (hsv : SavedAtEnd P o.proc.itraj)
    (hpos : 0 < o.proc.itraj) (H : Hist P (applyAll o.acts d) d') :
    ∃ N h g', (∃ ρ, (h.c 0, ρ) = P.initial (startRnd P d.seedNew none)) ∧ Chain.Moves P 0 N h ∧
      d'.confs P.path = some (.full { conf := h.c N, itraj := some (N : Int), rat := some (h.rat N), glb := g' }) ∧
      ∀ m, OwnsFile P m → (d'.texts m.path).getD [] = expected m h 0 N := by
  obtain ⟨i1, n, h, cr, -, r⟩ := C77_session P hP hp t es d o hs
  obtain ⟨e1, e2⟩ : i1 = 0 ∧ (h.c 0, h.rnd 0) = P.initial (startRnd P d.seedNew none) := by
    rcases r.starts with ⟨f, h1, -⟩ | ⟨h1, h2, h3, -⟩
    · rw [hd] at h1; cases h1
    · exact ⟨h2, h3⟩
  subst e1
  have h0 : 0 < n := by rw [r.last.2] at hpos; omega
  rw [r.last.2] at hsv
  have hrun := r.running he h0 hsv
  obtain ⟨N, h', g', a1, a2, a3, a4, a5⟩ := C77_history P hP hp _ _ H _ _ _ _ hrun
  have hg : (h.glue n h').c (n + N) = h'.c N ∧ (h.glue n h').rat (n + N) = h'.rat N := by
    rcases Nat.eq_zero_or_pos N with h1 | h1
    · subst h1
      simp only [Chain.glue, Nat.add_zero, if_pos (le_refl n), a1, a2, and_self]
    · simp only [Chain.glue, if_neg (show ¬ n + N ≤ n by omega)]
      rw [Nat.add_sub_cancel_left]; exact ⟨rfl, rfl⟩
  refine ⟨n + N, h.glue n h', g', ⟨h.rnd 0, ?_⟩, glue_moves P 0 h h' n N r.moves a3 a1 a2, ?_, ?_⟩
  · rw [← e2]; simp only [Chain.glue]; rw [if_pos (by omega)]
  · rw [hg.1, hg.2, a4]
    congr 4
    push_cast; omega
  · intro m hm
    rw [a5 m hm, r.texts m hm, glue_expected, hdt]
    simp

end Nissa.Gen
