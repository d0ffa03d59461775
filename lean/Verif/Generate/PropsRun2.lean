import Verif.Generate.PropsRun1

set_option linter.all false

/-! The loop of the generation program, unrolled. -/

namespace Nissa.Gen

variable {C A G L Line : Type}

/-- State after k iterations. -/
def stateN (P : Prog C A G L Line) : List Env → Proc C A G L → Nat → Proc C A G L
  | _, s, 0 => s
  | [], s, _ + 1 => s
  | e :: es, s, k + 1 => stateN P es (body P e s).2 k

/-- Actions of iteration k. -/
def actsN (P : Prog C A G L Line) : List Env → Proc C A G L → Nat → List (Act C A G Line)
  | [], _, _ => []
  | e :: _, s, 0 => (body P e s).1
  | e :: es, s, k + 1 => actsN P es (body P e s).2 k

/-- Actions of the first n iterations. -/
def actsUpTo (P : Prog C A G L Line) (es : List Env) (s : Proc C A G L) (n : Nat) :
    List (Act C A G Line) :=
  (List.range n).flatMap (actsN P es s)

theorem actsUpTo_zero (P : Prog C A G L Line) (es) (s : Proc C A G L) : actsUpTo P es s 0 = [] := rfl

theorem actsUpTo_succ (P : Prog C A G L Line) (es) (s : Proc C A G L) (n : Nat) :
    actsUpTo P es s (n + 1) = actsUpTo P es s n ++ actsN P es s n := by
  unfold actsUpTo; rw [List.range_succ, List.flatMap_append]; simp

theorem actsUpTo_cons (P : Prog C A G L Line) (e) (es) (s : Proc C A G L) (n : Nat) :
    actsUpTo P (e :: es) s (n + 1) = (body P e s).1 ++ actsUpTo P es (body P e s).2 n := by
  induction n with
  | zero => rw [actsUpTo_succ]; simp [actsUpTo_zero, actsN]
  | succ n ih =>
    rw [actsUpTo_succ, ih, actsUpTo_succ, List.append_assoc]; rfl

theorem stateN_succ (P : Prog C A G L Line) (es : List Env) (s : Proc C A G L) (n : Nat)
    (h : n < es.length) : stateN P es s (n + 1) = (body P es[n] (stateN P es s n)).2 := by
  induction n generalizing es s with
  | zero => cases es with
    | nil => simp at h
    | cons e es => simp [stateN]
  | succ n ih => cases es with
    | nil => simp at h
    | cons e es =>
      rw [stateN, ih es _ (by simpa using h)]; rfl

theorem actsN_eq (P : Prog C A G L Line) (es : List Env) (s : Proc C A G L) (n : Nat)
    (h : n < es.length) : actsN P es s n = (body P es[n] (stateN P es s n)).1 := by
  induction n generalizing es s with
  | zero => cases es with
    | nil => simp at h
    | cons e es => simp [stateN, actsN]
  | succ n ih => cases es with
    | nil => simp at h
    | cons e es =>
      rw [actsN, ih es _ (by simpa using h)]; rfl

/-- The loop performs n iterations: at each of them the check is passed; then either the check fails and
the program ends, or the process is killed. -/
theorem loop_eq (P : Prog C A G L Line) (stop : Bool) (tInit : ℚ) (es : List Env) (s : Proc C A G L) :
    ∃ n, n ≤ es.length ∧
      (∀ k (h : k < es.length), k < n →
        checkIfContinue P stop tInit es[k] (stateN P es s k) = ([], true)) ∧
      (loop P stop tInit es s).2.1 = stateN P es s n ∧
      (((loop P stop tInit es s).2.2 = false ∧ n = es.length ∧
          (loop P stop tInit es s).1 = actsUpTo P es s n) ∨
       ((loop P stop tInit es s).2.2 = true ∧
          ∃ h : n < es.length,
            (checkIfContinue P stop tInit es[n] (stateN P es s n)).2 = false ∧
            (loop P stop tInit es s).1 = actsUpTo P es s n ++
              (checkIfContinue P stop tInit es[n] (stateN P es s n)).1)) := by
  induction es generalizing s with
  | nil => exact ⟨0, le_refl _, by simp, rfl, Or.inl ⟨rfl, rfl, rfl⟩⟩
  | cons e es ih =>
    by_cases hgo : (checkIfContinue P stop tInit e s).2 = true
    · have hac : checkIfContinue P stop tInit e s = ([], true) := by
        have : (checkIfContinue P stop tInit e s).1 = [] := by
          unfold checkIfContinue at hgo ⊢
          split_ifs at hgo ⊢ <;> first | rfl | simp_all
        exact Prod.ext this hgo
      obtain ⟨n, h1, h2, h3, h4⟩ := ih (body P e s).2
      have hl : loop P stop tInit (e :: es) s =
          ((body P e s).1 ++ (loop P stop tInit es (body P e s).2).1,
            (loop P stop tInit es (body P e s).2).2) := by
        rw [loop, hac]; simp
      refine ⟨n + 1, by simpa using h1, ?_, ?_, ?_⟩
      · intro k hk hkn
        cases k with
        | zero => exact hac
        | succ k => exact h2 k (by simpa using hk) (by omega)
      · rw [hl]; exact h3
      · rw [hl]
        rcases h4 with ⟨a, b, c⟩ | ⟨a, b, c, d⟩
        · left; refine ⟨a, by simpa using b, ?_⟩
          show _ ++ _ = _
          rw [c, actsUpTo_cons]
        · right; refine ⟨a, by simpa using b, c, ?_⟩
          show _ ++ _ = _
          rw [d, actsUpTo_cons, List.append_assoc]; rfl
    · refine ⟨0, by simp, by simp, ?_, ?_⟩
      · rw [loop]; simp [hgo, stateN]
      · right
        refine ⟨by rw [loop]; simp [hgo], by simp, by simpa [stateN] using hgo, ?_⟩
        rw [loop]; simp [hgo, actsUpTo_zero, stateN]

/-! ## One iteration -/

/-- Actions of one iteration. -/
theorem body_acts (P : Prog C A G L Line) (e : Env) (s : Proc C A G L) :
    (body P e s).1 =
      (measurements P s.created (produce P s).1.conf (produce P s).1.itraj (produce P s).2 (produce P s).1.rnd).1 ++
      (if P.storeRunning ≠ 0 ∧ Int.tmod (body P e s).2.itraj P.storeRunning = 0 then
        writeConf P.path (body P e s).2 else []) ++
      (if P.storeEach ≠ 0 ∧ Int.tmod (body P e s).2.itraj P.storeEach = 0 then
        writeConf (P.storePath (body P e s).2.itraj) (body P e s).2 else []) := by
  have hc : (produce P s).1.created = s.created := by unfold produce; split <;> rfl
  unfold body storeIfNecessary
  simp only [hc]
  split_ifs <;> rfl

theorem body_itraj (P : Prog C A G L Line) (e : Env) (s : Proc C A G L) (hP : P.ntrajTot ≠ 0) :
    (body P e s).2.itraj = s.itraj + 1 := by
  unfold body storeIfNecessary produce
  simp only [hP, ne_eq, not_false_eq_true, if_true]
  split_ifs <;> rfl

theorem body_conf (P : Prog C A G L Line) (e : Env) (s : Proc C A G L) (hP : P.ntrajTot ≠ 0) :
    (body P e s).2.conf = (P.update s.itraj s.conf s.rat s.rnd).1 ∧
    (body P e s).2.rat = (P.update s.itraj s.conf s.rat s.rnd).2.1 ∧
    (body P e s).2.rnd = (measurements P s.created (P.update s.itraj s.conf s.rat s.rnd).1 (s.itraj + 1)
      (P.update s.itraj s.conf s.rat s.rnd).2.2.2 (P.update s.itraj s.conf s.rat s.rnd).2.2.1).2 ∧
    (body P e s).2.created = false ∧ (body P e s).2.ntrajProd = s.ntrajProd + 1 ∧
    ((body P e s).2.storedLast = true ↔ P.storeEach ≠ 0 ∧ P.storeEach ∣ s.itraj + 1) ∧
    (body P e s).2.maxTime = max s.maxTime (e.tEnd - e.tStart) := by
  unfold body storeIfNecessary produce
  simp only [hP, ne_eq, not_false_eq_true, if_true, Int.dvd_iff_tmod_eq_zero]
  split_ifs with h <;> simp_all

theorem produce_eq (P : Prog C A G L Line) (s : Proc C A G L) (hP : P.ntrajTot ≠ 0) :
    (produce P s).1.conf = (P.update s.itraj s.conf s.rat s.rnd).1 ∧
    (produce P s).1.itraj = s.itraj + 1 ∧
    (produce P s).2 = (P.update s.itraj s.conf s.rat s.rnd).2.2.2 ∧
    (produce P s).1.rnd = (P.update s.itraj s.conf s.rat s.rnd).2.2.1 := by
  unfold produce; simp [hP]

theorem stateN_itraj (P : Prog C A G L Line) (hP : P.ntrajTot ≠ 0) (es) (s : Proc C A G L) (n : Nat)
    (h : n ≤ es.length) :
    (stateN P es s n).itraj = s.itraj + n ∧ (stateN P es s n).ntrajProd = s.ntrajProd + n := by
  induction n with
  | zero => simp [stateN]
  | succ n ih =>
    have := ih (by omega)
    rw [stateN_succ P es s n (by omega), body_itraj P _ _ hP, (body_conf P _ _ hP).2.2.2.2.1]
    constructor
    · rw [this.1]; push_cast; ring
    · rw [this.2]; omega

end Nissa.Gen
