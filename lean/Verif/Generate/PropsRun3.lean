import Verif.Generate.PropsRun2

set_option linter.all false

/-! What a session leaves on the disk. -/

namespace Nissa.Gen

variable {C A G L Line : Type}

/-! ## Specification -/

/-- A history of configurations with consecutive ids: `c k` is the configuration after k trajectories,
`rat k` the rational approximations, `rnd k` the state of the random generators when trajectory k+1
starts, `acc k` the outcome of the test of trajectory k. -/
structure Chain (C A G L : Type) where
  c : Nat → C
  rat : Nat → A
  rnd : Nat → G × L
  acc : Nat → Int

/-- The first n configurations after the initial one are each obtained from the previous one with the
update of the program, the trajectory ids being i0, i0+1, …; with no fermionic measurement the random
numbers go on from one trajectory to the next. -/
def Chain.Steps (P : Prog C A G L Line) (i0 : Int) (n : Nat) (h : Chain C A G L) : Prop :=
  ∀ k < n, ∃ ρ, P.update (i0 + k) (h.c k) (h.rat k) (h.rnd k) = (h.c (k + 1), h.rat (k + 1), ρ, h.acc (k + 1)) ∧
    (P.ferm = [] → h.rnd (k + 1) = ρ)

/-- What is found in a file where the configuration number k of the chain has been saved. -/
def Chain.saved (h : Chain C A G L) (i0 : Int) (k : Nat) : CFile C A G :=
  .full { conf := h.c k, itraj := some (i0 + k), rat := some (h.rat k), glb := some (h.rnd k).1 }

/-! ## Lemmas -/

theorem confs_writeConf (p q : String) (s : Proc C A G L) (d : Disk C A G Line) :
    (applyAll (writeConf p s) d).confs q = if q = p then some (.full (record s)) else d.confs q := by
  unfold writeConf
  simp only [applyAll, List.foldl_cons, List.foldl_nil, Act.apply]
  split <;> simp_all

theorem texts_writeConf (p q : String) (s : Proc C A G L) (d : Disk C A G Line) :
    (applyAll (writeConf p s) d).texts q = d.texts q := rfl

theorem confs_measurements (P : Prog C A G L Line) (created : Bool) (conf : C) (iconf acc : Int)
    (rnd : G × L) (p : String) (d : Disk C A G Line) :
    (applyAll (measurements P created conf iconf acc rnd).1 d).confs p = d.confs p := by
  apply confs_quiet
  intro a ha
  obtain ⟨q, hq⟩ := measurements_textOf _ _ _ _ _ _ _ ha
  exact hq.cquiet

/-- Files of configurations after one iteration. -/
theorem confs_body (P : Prog C A G L Line) (e : Env) (s : Proc C A G L) (p : String) (d : Disk C A G Line) :
    (applyAll (body P e s).1 d).confs p =
      if (P.storeEach ≠ 0 ∧ P.storeEach ∣ (body P e s).2.itraj) ∧ p = P.storePath (body P e s).2.itraj then
        some (.full (record (body P e s).2))
      else if (P.storeRunning ≠ 0 ∧ P.storeRunning ∣ (body P e s).2.itraj) ∧ p = P.path then
        some (.full (record (body P e s).2))
      else d.confs p := by
  rw [body_acts]
  simp only [← Int.dvd_iff_tmod_eq_zero, applyAll_append]
  by_cases h1 : P.storeEach ≠ 0 ∧ P.storeEach ∣ (body P e s).2.itraj <;>
  by_cases h2 : P.storeRunning ≠ 0 ∧ P.storeRunning ∣ (body P e s).2.itraj <;>
  simp only [h1, h2, if_true, if_false, true_and, false_and, applyAll_nil, confs_writeConf,
    confs_measurements, ne_eq, not_false_eq_true, and_self]

/-- Text files after one iteration: only the measurements matter. -/
theorem texts_body (P : Prog C A G L Line) (e : Env) (s : Proc C A G L) (p : String) (d : Disk C A G Line) :
    (applyAll (body P e s).1 d).texts p =
      (applyAll (measurements P s.created (produce P s).1.conf (produce P s).1.itraj (produce P s).2
        (produce P s).1.rnd).1 d).texts p := by
  rw [body_acts]
  simp only [applyAll_append]
  split_ifs <;> simp only [applyAll_nil, texts_writeConf]

/-- The chain of configurations made by the loop. -/
def chainOf (P : Prog C A G L Line) (es : List Env) (s : Proc C A G L) : Chain C A G L where
  c k := (stateN P es s k).conf
  rat k := (stateN P es s k).rat
  rnd k := (stateN P es s k).rnd
  acc k := match k with
    | 0 => 1
    | k + 1 => (P.update (stateN P es s k).itraj (stateN P es s k).conf (stateN P es s k).rat
        (stateN P es s k).rnd).2.2.2

theorem chainOf_steps (P : Prog C A G L Line) (hP : P.ntrajTot ≠ 0) (es : List Env) (s : Proc C A G L)
    (n : Nat) (hn : n ≤ es.length) : (chainOf P es s).Steps P s.itraj n := by
  intro k hk
  have hi := (stateN_itraj P hP es s k (by omega)).1
  have hb := body_conf P es[k] (stateN P es s k) hP
  have hs := stateN_succ P es s k (by omega)
  refine ⟨(P.update (stateN P es s k).itraj (stateN P es s k).conf (stateN P es s k).rat
        (stateN P es s k).rnd).2.2.1, ?_, ?_⟩
  · rw [← hi]
    show P.update (stateN P es s k).itraj (stateN P es s k).conf (stateN P es s k).rat
        (stateN P es s k).rnd = ((stateN P es s (k+1)).conf, (stateN P es s (k+1)).rat, _, _)
    rw [hs, hb.1, hb.2.1]; rfl
  · intro hf
    show (stateN P es s (k+1)).rnd = _
    rw [hs, hb.2.2.1, measurements_rnd _ _ _ _ _ _ hf]

theorem record_stateN (P : Prog C A G L Line) (hP : P.ntrajTot ≠ 0) (es : List Env) (s : Proc C A G L)
    (k : Nat) (hk : k ≤ es.length) :
    some (CFile.full (record (stateN P es s k))) = some ((chainOf P es s).saved s.itraj k) := by
  unfold record Chain.saved chainOf
  rw [(stateN_itraj P hP es s k hk).1]

/-- The running configuration after n iterations: the last one whose id was a multiple. -/
theorem running_upTo (P : Prog C A G L Line) (hP : P.ntrajTot ≠ 0) (hp : ∀ i, P.storePath i ≠ P.path)
    (es : List Env) (s : Proc C A G L) (d : Disk C A G Line) (n : Nat) (hn : n ≤ es.length) :
    ∃ j ≤ n, (∀ k, j < k → k ≤ n → ¬ (P.storeRunning ≠ 0 ∧ P.storeRunning ∣ s.itraj + k)) ∧
      ((j = 0 ∧ (applyAll (actsUpTo P es s n) d).confs P.path = d.confs P.path) ∨
       (0 < j ∧ P.storeRunning ≠ 0 ∧ P.storeRunning ∣ s.itraj + j ∧
        (applyAll (actsUpTo P es s n) d).confs P.path = some ((chainOf P es s).saved s.itraj j))) := by
  induction n with
  | zero => exact ⟨0, le_refl _, by omega, Or.inl ⟨rfl, rfl⟩⟩
  | succ n ih =>
    obtain ⟨j, hj, hmax, h⟩ := ih (by omega)
    have hit := (stateN_itraj P hP es s (n+1) hn).1
    have hs := stateN_succ P es s n (by omega)
    rw [actsUpTo_succ, applyAll_append, actsN_eq P es s n (by omega), confs_body, ← hs,
      if_neg (fun h => hp _ h.2.symm)]
    by_cases hr : P.storeRunning ≠ 0 ∧ P.storeRunning ∣ (stateN P es s (n+1)).itraj
    · refine ⟨n + 1, le_refl _, by omega, Or.inr ⟨by omega, hr.1, by rw [← hit]; exact hr.2, ?_⟩⟩
      rw [if_pos ⟨hr, rfl⟩, record_stateN P hP es s (n+1) hn]
    · refine ⟨j, by omega, ?_, ?_⟩
      · intro k hk1 hk2
        by_cases hkn : k = n + 1
        · subst hkn; rw [hit] at hr; exact hr
        · exact hmax k hk1 (by omega)
      · rw [if_neg (fun h => hr h.1)]; exact h

/-- Stored configurations after n iterations. -/
theorem stored_upTo (P : Prog C A G L Line) (hP : P.ntrajTot ≠ 0) (hp : ∀ i, P.storePath i ≠ P.path)
    (hinj : ∀ i j, P.storePath i = P.storePath j → i = j) (es : List Env) (s : Proc C A G L)
    (d : Disk C A G Line) (n : Nat) (hn : n ≤ es.length) (i : Int) :
    (applyAll (actsUpTo P es s n) d).confs (P.storePath i) =
      if P.storeEach ≠ 0 ∧ P.storeEach ∣ i ∧ s.itraj < i ∧ i ≤ s.itraj + n then
        some ((chainOf P es s).saved s.itraj (i - s.itraj).toNat)
      else d.confs (P.storePath i) := by
  induction n with
  | zero =>
    rw [if_neg (by omega)]; rfl
  | succ n ih =>
    have hit := (stateN_itraj P hP es s (n+1) hn).1
    have hs := stateN_succ P es s n (by omega)
    rw [actsUpTo_succ, applyAll_append, actsN_eq P es s n (by omega), confs_body, ← hs,
      if_neg (c := _ ∧ P.storePath i = P.path) (fun h => hp _ h.2), ih (by omega), hit]
    by_cases hi : i = s.itraj + (n + 1 : Nat)
    · subst hi
      have hto : (s.itraj + (n + 1 : Nat) - s.itraj).toNat = n + 1 := by omega
      by_cases h : P.storeEach ≠ 0 ∧ P.storeEach ∣ s.itraj + (n + 1 : Nat)
      · rw [if_pos ⟨h, rfl⟩, if_pos ⟨h.1, h.2, by omega, le_refl _⟩, hto, record_stateN P hP es s (n+1) hn]
      · rw [if_neg (fun k => h k.1), if_neg (fun k => h ⟨k.1, k.2.1⟩), if_neg (fun k => h ⟨k.1, k.2.1⟩)]
    · rw [if_neg (fun k => hi (hinj _ _ k.2))]
      have : (P.storeEach ≠ 0 ∧ P.storeEach ∣ i ∧ s.itraj < i ∧ i ≤ s.itraj + n) ↔
          (P.storeEach ≠ 0 ∧ P.storeEach ∣ i ∧ s.itraj < i ∧ i ≤ s.itraj + (n + 1 : Nat)) := by
        constructor
        · rintro ⟨a, b, c, d⟩; exact ⟨a, b, c, by push_cast; omega⟩
        · rintro ⟨a, b, c, d⟩; exact ⟨a, b, c, by push_cast at hi d; omega⟩
      simp only [this]

/-- The lines a measurement must have written after the first n trajectories of a chain. -/
def expected (m : GMeas C Line) (h : Chain C A G L) (i0 : Int) (n : Nat) : List Line :=
  (List.range n).flatMap fun k : Nat =>
    if 0 < m.each ∧ m.after ≤ i0 + k + 1 ∧ m.each ∣ i0 + k + 1 - m.after then
      m.lines (h.c (k + 1)) (i0 + k + 1) (h.acc (k + 1))
    else []

theorem expected_succ (m : GMeas C Line) (h : Chain C A G L) (i0 : Int) (n : Nat) :
    expected m h i0 (n + 1) = expected m h i0 n ++
      (if 0 < m.each ∧ m.after ≤ i0 + n + 1 ∧ m.each ∣ i0 + n + 1 - m.after then
      m.lines (h.c (n + 1)) (i0 + n + 1) (h.acc (n + 1)) else []) := by
  unfold expected; rw [List.range_succ, List.flatMap_append]; simp

/-- m is the only measurement which writes in its file. -/
def OwnsFile (P : Prog C A G L Line) (m : GMeas C Line) : Prop :=
  ∃ pre post, P.gauge = pre ++ m :: post ∧ (∀ m' ∈ pre, m'.path ≠ m.path) ∧
    (∀ m' ∈ post, m'.path ≠ m.path) ∧ ∀ m' ∈ P.ferm, m'.path ≠ m.path

theorem created_stateN (P : Prog C A G L Line) (hP : P.ntrajTot ≠ 0) (es : List Env) (s : Proc C A G L)
    (n : Nat) (hn : n < es.length) : (stateN P es s (n + 1)).created = false := by
  rw [stateN_succ P es s n hn]; exact (body_conf P _ _ hP).2.2.2.1

/-- Text of a measurement after n iterations of a session which started from a file, or whose first
trajectory is over. -/
theorem text_upTo (P : Prog C A G L Line) (hP : P.ntrajTot ≠ 0) (m : GMeas C Line) (hm : OwnsFile P m)
    (es : List Env) (s : Proc C A G L) (d : Disk C A G Line) (n : Nat) (hn : n ≤ es.length) :
    ((applyAll (actsUpTo P es s n) d).texts m.path).getD [] =
      (if s.created = true ∧ 0 < n ∧ (0 < m.each ∧ m.after ≤ s.itraj + 1 ∧ m.each ∣ s.itraj + 1 - m.after) then []
        else (d.texts m.path).getD []) ++
      expected m (chainOf P es s) s.itraj n := by
  obtain ⟨pre, post, hg, h1, h2, h3⟩ := hm
  induction n with
  | zero => simp [actsUpTo_zero, applyAll_nil, expected]
  | succ n ih =>
    have ih := ih (by omega)
    have hit := (stateN_itraj P hP es s n (by omega)).1
    have hpr := produce_eq P (stateN P es s n) hP
    have hs := stateN_succ P es s n (by omega)
    have hb := body_conf P es[n] (stateN P es s n) hP
    have hc : (produce P (stateN P es s n)).1.conf = (chainOf P es s).c (n + 1) := by
      rw [hpr.1]; show _ = (stateN P es s (n+1)).conf; rw [hs, hb.1]
    have ha : (produce P (stateN P es s n)).2 = (chainOf P es s).acc (n + 1) := hpr.2.2.1
    rw [actsUpTo_succ, applyAll_append, actsN_eq P es s n (by omega), texts_body,
      texts_measurements_gauge P _ _ _ _ _ m pre post hg h1 h2 h3, expected_succ, hc, ha, hpr.2.1, hit]
    have hdue := measureIsDue_iff m.each m.after (s.itraj + n + 1)
    rcases Nat.eq_zero_or_pos n with hn0 | hn0
    · subst hn0
      simp only [stateN, actsUpTo_zero, applyAll_nil, expected, List.range_zero, List.flatMap_nil,
        List.append_nil, List.nil_append, Nat.cast_zero, add_zero] at *
      by_cases hd : measureIsDue m.each m.after (s.itraj + 1) = true
      · have hd' := hdue.1 hd
        rw [if_pos hd, if_pos hd']
        cases hcr : s.created <;> simp [hd']
      · have hd' := fun k => hd (hdue.2 k)
        rw [if_neg hd, if_neg hd']
        rw [if_neg (fun k => hd' k.2.2)]; simp
    · have hcr : (stateN P es s n).created = false := by
        obtain ⟨k, rfl⟩ : ∃ k, n = k + 1 := ⟨n - 1, by omega⟩
        exact created_stateN P hP es s k (by omega)
      have hbase : (s.created = true ∧ 0 < n ∧ (0 < m.each ∧ m.after ≤ s.itraj + 1 ∧ m.each ∣ s.itraj + 1 - m.after)) ↔
          (s.created = true ∧ 0 < n + 1 ∧ (0 < m.each ∧ m.after ≤ s.itraj + 1 ∧ m.each ∣ s.itraj + 1 - m.after)) := by
        constructor
        · rintro ⟨a, -, c⟩; exact ⟨a, by omega, c⟩
        · rintro ⟨a, -, c⟩; exact ⟨a, hn0, c⟩
      by_cases hd : measureIsDue m.each m.after (s.itraj + n + 1) = true
      · rw [if_pos hd, if_pos (hdue.1 hd), hcr]
        simp only [Bool.false_eq_true, if_false, Option.getD_some]
        rw [ih]; simp only [hbase, List.append_assoc]
      · rw [if_neg hd, if_neg (fun k => hd (hdue.2 k)), List.append_nil, ih]
        simp only [hbase]

end Nissa.Gen
