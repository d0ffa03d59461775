import Verif.Generate.PropsRun6
import Mathlib.Tactic.Linarith

set_option linter.all false

/-! C77: fermionic measurements, time, analysis. -/

namespace Nissa.Gen

variable {C A G L Line : Type}

/-- The fermionic measurement m is the only one which writes in its file. -/
def OwnsFileF (P : Prog C A G L Line) (m : FMeas C G L Line) : Prop :=
  ∃ pre post, P.ferm = pre ++ m :: post ∧ (∀ m' ∈ pre, m'.path ≠ m.path) ∧
    (∀ m' ∈ post, m'.path ≠ m.path) ∧ ∀ m' ∈ P.gauge, m'.path ≠ m.path

theorem fermOne_other (created : Bool) (conf : C) (iconf it : Int) (m : FMeas C G L Line) (p : String)
    (hm : m.path ≠ p) (s : List (Act C A G Line) × (G × L)) (d : Disk C A G Line) :
    (applyAll (fermOne created conf iconf it s m).1 d).texts p = (applyAll s.1 d).texts p := by
  obtain ⟨t, h, ht⟩ := fermOne_tail created conf iconf it m s
  rw [h, applyAll_append, texts_quiet (fun a ha => (ht a ha).quiet hm)]

theorem fermFold_other (created : Bool) (conf : C) (iconf it : Int) (ms : List (FMeas C G L Line)) (p : String)
    (hm : ∀ m ∈ ms, m.path ≠ p) (s : List (Act C A G Line) × (G × L)) (d : Disk C A G Line) :
    (applyAll (ms.foldl (fermOne created conf iconf it) s).1 d).texts p = (applyAll s.1 d).texts p := by
  obtain ⟨t, h, ht⟩ := fermFold_tail created conf iconf it ms s
  rw [h, applyAll_append, texts_quiet]
  intro a ha
  obtain ⟨m, hm', h'⟩ := ht a ha
  exact h'.quiet (hm m hm')

/-- One theory. -/
theorem fermTheory_text (P : Prog C A G L Line) (created : Bool) (conf : C) (iconf : Int) (it : Nat)
    (m : FMeas C G L Line) (hm : OwnsFileF P m) (s : List (Act C A G Line) × (G × L)) (d : Disk C A G Line) :
    ∃ ρ, (applyAll (fermTheory P created conf iconf s it).1 d).texts m.path =
      if anyFermIsDue P it iconf = true ∧ ifMeasIsDuePrint m it iconf = true then
        some ((if created then [] else ((applyAll s.1 d).texts m.path).getD []) ++ (m.run conf iconf ρ).1)
      else (applyAll s.1 d).texts m.path := by
  obtain ⟨pre, post, hf, h1, h2, -⟩ := hm
  unfold fermTheory
  by_cases ha : anyFermIsDue P it iconf = true
  · rw [if_pos ha, hf, List.foldl_append, List.foldl_cons]
    set s1 := pre.foldl (fermOne created conf iconf it) s with hs1
    have hT1 : (applyAll s1.1 d).texts m.path = (applyAll s.1 d).texts m.path :=
      fermFold_other created conf iconf it pre m.path h1 s d
    refine ⟨s1.2, ?_⟩
    rw [fermFold_other created conf iconf it post m.path h2]
    unfold fermOne
    by_cases hd : ifMeasIsDuePrint m it iconf = true
    · rw [if_pos hd, if_pos ⟨ha, hd⟩]
      show (applyAll (s1.1 ++ output created m.path (m.run conf iconf s1.2).1) d).texts m.path = _
      rw [applyAll_append, texts_output, hT1]
    · rw [if_neg hd, if_neg (fun h => hd h.2), hT1]
  · refine ⟨s.2, ?_⟩
    rw [if_neg ha, if_neg (fun h => ha h.1)]

theorem theories_text (P : Prog C A G L Line) (created : Bool) (conf : C) (iconf : Int)
    (m : FMeas C G L Line) (hm : OwnsFileF P m) (ts : List Nat) (hnd : ts.Nodup)
    (s : List (Act C A G Line) × (G × L)) (d : Disk C A G Line) :
    ∃ ρ, (applyAll (ts.foldl (fermTheory P created conf iconf) s).1 d).texts m.path =
      if (∃ it ∈ ts, (it : Int) = m.itheory) ∧ anyFermIsDue P m.itheory iconf = true ∧
          measureIsDue m.each m.after iconf = true then
        some ((if created then [] else ((applyAll s.1 d).texts m.path).getD []) ++ (m.run conf iconf ρ).1)
      else (applyAll s.1 d).texts m.path := by
  induction ts generalizing s with
  | nil => exact ⟨s.2, by rw [if_neg (by simp)]; rfl⟩
  | cons t ts ih =>
    rw [List.nodup_cons] at hnd
    rw [List.foldl_cons]
    obtain ⟨ρ1, h1⟩ := fermTheory_text P created conf iconf t m hm s d
    obtain ⟨ρ2, h2⟩ := ih hnd.2 (fermTheory P created conf iconf s t)
    by_cases ht : (t : Int) = m.itheory
    · have hno : ¬ ∃ it ∈ ts, (it : Int) = m.itheory := by
        rintro ⟨it, hit, he⟩
        have : it = t := by omega
        subst this; exact hnd.1 hit
      rw [if_neg (fun h => hno h.1)] at h2
      refine ⟨ρ1, ?_⟩
      rw [h2, h1]
      have hiff : (anyFermIsDue P t iconf = true ∧ ifMeasIsDuePrint m t iconf = true) ↔
          ((∃ it ∈ t :: ts, (it : Int) = m.itheory) ∧ anyFermIsDue P m.itheory iconf = true ∧
          measureIsDue m.each m.after iconf = true) := by
        unfold ifMeasIsDuePrint
        rw [ht]
        simp only [decide_true, Bool.and_true]
        constructor
        · rintro ⟨a, b⟩; exact ⟨⟨t, List.mem_cons_self, ht⟩, a, b⟩
        · rintro ⟨-, a, b⟩; exact ⟨a, b⟩
      simp only [hiff]
    · have hnd' : ¬ ifMeasIsDuePrint m t iconf = true := by
        unfold ifMeasIsDuePrint
        simp [Ne.symm ht]
      rw [if_neg (fun h => hnd' h.2)] at h1
      refine ⟨ρ2, ?_⟩
      rw [h2, h1]
      have hiff : (∃ it ∈ t :: ts, (it : Int) = m.itheory) ↔ (∃ it ∈ ts, (it : Int) = m.itheory) := by
        simp [ht]
      simp only [hiff]

/-- Conditions under which the program really performs a fermionic measurement. -/
def Performed (P : Prog C A G L Line) (m : FMeas C G L Line) (i : Int) : Prop :=
  (0 ≤ m.itheory ∧ m.itheory < P.nTheories) ∧ (0 < m.each ∧ m.after ≤ i ∧ m.each ∣ i - m.after) ∧
  ∃ m' ∈ P.ferm, m'.itheory = m.itheory ∧ 0 < m'.each ∧ m'.each ∣ i ∧ m'.after ≤ i

open Classical in
theorem measurements_fermion (P : Prog C A G L Line) (created : Bool) (conf : C) (iconf acc : Int)
    (rnd : G × L) (m : FMeas C G L Line) (hm : OwnsFileF P m) (d : Disk C A G Line) :
    ∃ ρ, (applyAll (measurements P created conf iconf acc rnd).1 d).texts m.path =
      if Performed P m iconf then
        some ((if created then [] else (d.texts m.path).getD []) ++ (m.run conf iconf ρ).1)
      else d.texts m.path := by
  unfold measurements
  obtain ⟨ρ, h⟩ := theories_text P created conf iconf m hm (List.range P.nTheories) List.nodup_range
    (gaugeActs P created conf iconf acc, rnd) d
  have hg : (applyAll (gaugeActs P created conf iconf acc : List (Act C A G Line)) d).texts m.path = d.texts m.path := by
    apply texts_quiet
    intro a ha
    obtain ⟨m', hm', h'⟩ := gauge_textOf _ _ _ _ _ _ ha
    obtain ⟨-, -, -, -, -, h3⟩ := hm
    exact h'.quiet (h3 m' hm')
  refine ⟨ρ, ?_⟩
  rw [h, hg]
  have hiff : ((∃ it ∈ List.range P.nTheories, (it : Int) = m.itheory) ∧
      anyFermIsDue P m.itheory iconf = true ∧ measureIsDue m.each m.after iconf = true) ↔ Performed P m iconf := by
    unfold Performed anyFermIsDue
    rw [measureIsDue_iff, List.any_eq_true]
    simp only [fermIsDue_iff, List.mem_range]
    constructor
    · rintro ⟨⟨it, h1, h2⟩, ⟨m', h3, h4⟩, h5⟩
      exact ⟨⟨by omega, by omega⟩, h5, m', h3, h4⟩
    · rintro ⟨⟨h1, h2⟩, h5, m', h3, h4⟩
      exact ⟨⟨m.itheory.toNat, by omega, by omega⟩, ⟨m', h3, h4⟩, h5⟩
  by_cases hp : Performed P m iconf
  · rw [if_pos (hiff.2 hp), if_pos hp]
  · rw [if_neg (fun k => hp (hiff.1 k)), if_neg hp]

open Classical in
/-- Lines of a fermionic measurement for the first n trajectories of a chain; ρ says which random numbers
have been used each time. -/
noncomputable def expectedF (m : FMeas C G L Line) (h : Chain C A G L) (ρ : Nat → G × L) (i0 : Int) (n : Nat) : List Line :=
  (List.range n).flatMap fun k : Nat =>
    if 0 < m.each ∧ m.after ≤ i0 + k + 1 ∧ m.each ∣ i0 + k + 1 - m.after then
      (m.run (h.c (k + 1)) (i0 + k + 1) (ρ k)).1
    else []

open Classical in
/-- C77: fermionic measurements.  If `after` is a multiple of `each`, a fermionic measurement of an existing
theory which owns its file writes in it the lines of each configuration for which it is due. -/
theorem C77_fermion (P : Prog C A G L Line) (hP : P.ntrajTot ≠ 0)
    (tInit : ℚ) (es : List Env) (d : Disk C A G Line) (o : Outcome C A G L Line)
    (h : session P tInit es d = some o) (f) (hf : d.confs P.path = some (.full f)) (m : FMeas C G L Line)
    (hm : OwnsFileF P m) (ht : 0 ≤ m.itheory ∧ m.itheory < P.nTheories) (hdiv : m.each ∣ m.after) :
    ∃ n : Nat, ∃ h ρ, h.c 0 = f.conf ∧ h.Steps P (f.itraj.getD 0) n ∧ o.proc.itraj = f.itraj.getD 0 + n ∧
      ((applyAll o.acts d).texts m.path).getD [] =
        (d.texts m.path).getD [] ++ expectedF m h ρ (f.itraj.getD 0) n := by
  obtain ⟨ai, s, n, chk, cl, hi, hn, hproc, hacts, hchk, hcl, -⟩ := session_acts P tInit es d o h
  obtain ⟨hs1, hs2, hs3, -, hs4⟩ := initRun_spec P d ai s hi
  have hit := stateN_itraj P hP es s n hn
  have h0 : stateN P es s 0 = s := by simp [stateN]
  obtain ⟨e1, e2, e3⟩ : s.conf = f.conf ∧ s.itraj = f.itraj.getD 0 ∧ s.created = false := by
    rcases hs1 with ⟨f', h1, h2, h3, h4, h5, h6⟩ | ⟨h1, -⟩
    · rw [hf] at h1; cases h1; exact ⟨h2, h3, h6⟩
    · rw [hf] at h1; cases h1
  have hdue : ∀ i, Performed P m i ↔ (0 < m.each ∧ m.after ≤ i ∧ m.each ∣ i - m.after) := by
    intro i
    constructor
    · rintro ⟨-, h, -⟩; exact h
    · intro hh
      refine ⟨ht, hh, m, ?_, rfl, hh.1, ?_, hh.2.1⟩
      · obtain ⟨pre, post, hff, -⟩ := hm; rw [hff]; simp
      · have := Int.dvd_add hh.2.2 hdiv
        rwa [Int.sub_add_cancel] at this
  have hit0 : ∀ k ≤ n, ∃ ρ : Nat → G × L, ∀ j < k, ((applyAll (actsUpTo P es s (j + 1)) (applyAll ai d)).texts m.path).getD [] =
      ((applyAll (actsUpTo P es s j) (applyAll ai d)).texts m.path).getD [] ++
      (if 0 < m.each ∧ m.after ≤ s.itraj + j + 1 ∧ m.each ∣ s.itraj + j + 1 - m.after then
        (m.run ((chainOf P es s).c (j + 1)) (s.itraj + j + 1) (ρ j)).1 else []) := by
    have step : ∀ j : Nat, j < n → ∃ ρ : G × L, ((applyAll (actsUpTo P es s (j + 1)) (applyAll ai d)).texts m.path).getD [] =
      ((applyAll (actsUpTo P es s j) (applyAll ai d)).texts m.path).getD [] ++
      (if 0 < m.each ∧ m.after ≤ s.itraj + j + 1 ∧ m.each ∣ s.itraj + j + 1 - m.after then
        (m.run ((chainOf P es s).c (j + 1)) (s.itraj + j + 1) ρ).1 else []) := by
      intro j hj
      have hij := (stateN_itraj P hP es s j (by omega)).1
      have hpr := produce_eq P (stateN P es s j) hP
      have hsj := stateN_succ P es s j (by omega)
      have hb := body_conf P es[j] (stateN P es s j) hP
      have hcr : (stateN P es s j).created = false := by
        cases j with
        | zero => rw [h0]; exact e3
        | succ j => exact created_stateN P hP es s j (by omega)
      obtain ⟨ρ, hρ⟩ := measurements_fermion P (stateN P es s j).created (produce P (stateN P es s j)).1.conf
        (produce P (stateN P es s j)).1.itraj (produce P (stateN P es s j)).2 (produce P (stateN P es s j)).1.rnd
        m hm (applyAll (actsUpTo P es s j) (applyAll ai d))
      refine ⟨ρ, ?_⟩
      have hc : (produce P (stateN P es s j)).1.conf = (chainOf P es s).c (j + 1) := by
        rw [hpr.1]; show _ = (stateN P es s (j+1)).conf; rw [hsj, hb.1]
      rw [actsUpTo_succ, applyAll_append, actsN_eq P es s j (by omega), texts_body, hρ, hpr.2.1, hij, hc, hcr]
      by_cases hd : Performed P m (s.itraj + j + 1)
      · rw [if_pos hd, if_pos ((hdue _).1 hd)]; simp
      · rw [if_neg hd, if_neg (fun k => hd ((hdue _).2 k))]; simp
    intro k hk
    haveI : Nonempty (G × L) := ⟨s.rnd⟩
    choose! ρ hρ using step
    exact ⟨ρ, fun j hj => hρ j (by omega)⟩
  obtain ⟨ρ, hρ⟩ := hit0 n (le_refl _)
  refine ⟨n, chainOf P es s, ρ, ?_, ?_, ?_, ?_⟩
  · show (stateN P es s 0).conf = _; rw [h0, e1]
  · rw [← e2]; exact chainOf_steps P hP es s n hn
  · rw [hproc, hit.1, e2]
  · rw [hacts, applyAll_append, applyAll_append, applyAll_append]
    have hc' : ∀ d : Disk C A G Line, (applyAll cl d).texts m.path = d.texts m.path := by
      intro d
      rcases hcl with h | h
      · rw [h]; rfl
      · rw [h]; unfold closeActs; split <;> rfl
    rw [hc', texts_quiet (fun a ha => (hchk a ha).1 _), ← e2]
    have : ∀ k ≤ n, ((applyAll (actsUpTo P es s k) (applyAll ai d)).texts m.path).getD [] =
        (d.texts m.path).getD [] ++ expectedF m (chainOf P es s) ρ s.itraj k := by
      intro k hk
      induction k with
      | zero =>
        rw [actsUpTo_zero, applyAll_nil, texts_quiet (fun a ha => (hs4 a ha).1 _)]
        simp [expectedF]
      | succ k ih =>
        rw [hρ k (by omega), ih (by omega)]
        unfold expectedF
        rw [List.range_succ, List.flatMap_append, List.append_assoc]
        simp
    exact this n (le_refl _)

/-- C77, violated: a fermionic measurement alone in its theory whose `after` is not a multiple of its
`each` is never done, whatever the session. -/
theorem C77_violated_after (P : Prog C A G L Line)
    (tInit : ℚ) (es : List Env) (d : Disk C A G Line) (o : Outcome C A G L Line)
    (h : session P tInit es d = some o) (m : FMeas C G L Line) (hm : OwnsFileF P m)
    (halone : ∀ m' ∈ P.ferm, m'.itheory = m.itheory → m'.each = m.each) (hdiv : ¬ m.each ∣ m.after) :
    (applyAll o.acts d).texts m.path = d.texts m.path := by
  obtain ⟨ai, s, n, chk, cl, hi, hn, hproc, hacts, hchk, hcl, -⟩ := session_acts P tInit es d o h
  obtain ⟨hs1, hs2, hs3, -, hs4⟩ := initRun_spec P d ai s hi
  have hnp : ∀ i, ¬ Performed P m i := by
    rintro i ⟨-, ⟨h1, h2, h3⟩, m', h4, h5, h6, h7, h8⟩
    rw [halone m' h4 h5] at h7
    apply hdiv
    have := Int.dvd_sub h7 h3
    have e : i - (i - m.after) = m.after := by omega
    rwa [e] at this
  rw [hacts, applyAll_append, applyAll_append, applyAll_append]
  have hc' : ∀ d : Disk C A G Line, (applyAll cl d).texts m.path = d.texts m.path := by
    intro d
    rcases hcl with h | h
    · rw [h]; rfl
    · rw [h]; unfold closeActs; split <;> rfl
  rw [hc', texts_quiet (fun a ha => (hchk a ha).1 _)]
  have : ∀ k ≤ n, (applyAll (actsUpTo P es s k) (applyAll ai d)).texts m.path = d.texts m.path := by
    intro k hk
    induction k with
    | zero => rw [actsUpTo_zero, applyAll_nil, texts_quiet (fun a ha => (hs4 a ha).1 _)]
    | succ k ih =>
      rw [actsUpTo_succ, applyAll_append, actsN_eq P es s k (by omega), texts_body]
      obtain ⟨ρ, hρ⟩ := measurements_fermion P (stateN P es s k).created (produce P (stateN P es s k)).1.conf
        (produce P (stateN P es s k)).1.itraj (produce P (stateN P es s k)).2 (produce P (stateN P es s k)).1.rnd
        m hm (applyAll (actsUpTo P es s k) (applyAll ai d))
      rw [hρ, if_neg (hnp _), ih (by omega)]
  exact this n (le_refl _)

/-! ## Time -/

theorem maxTime_stateN (P : Prog C A G L Line) (hP : P.ntrajTot ≠ 0) (es : List Env) (s : Proc C A G L)
    (n : Nat) (hn : n ≤ es.length) (j : Nat) (hj : j < n) (hjl : j < es.length) :
    es[j].tEnd - es[j].tStart ≤ (stateN P es s n).maxTime := by
  induction n with
  | zero => omega
  | succ n ih =>
    rw [stateN_succ P es s n (by omega), (body_conf P _ _ hP).2.2.2.2.2.2]
    rcases Nat.lt_or_ge j n with h | h
    · exact le_trans (ih (by omega) h) (le_max_left _ _)
    · have : j = n := by omega
      subst this; exact le_max_right _ _

/-- C77: the time.  If the trajectory number k+1 of a session (k > 0) takes, from the check, at most twice
the time of one of the previous ones, it is over before the time given to the program. -/
theorem C77_walltime (P : Prog C A G L Line) (hP : P.ntrajTot ≠ 0) (tInit : ℚ) (es : List Env)
    (d : Disk C A G Line) (o : Outcome C A G L Line) (h : session P tInit es d = some o)
    (i0 : Int) (c a ρ b) (hst : StartsFrom P d i0 c a ρ b) (k : Nat) (hk : k < es.length)
    (hkn : i0 + k < o.proc.itraj) (j : Nat) (hj : j < k)
    (hpos : 0 < es[j].tEnd - es[j].tStart)
    (hdur : es[k].tEnd - es[k].tCheck ≤ 2 * (es[j].tEnd - es[j].tStart)) :
    es[k].tEnd ≤ tInit + P.walltime := by
  obtain ⟨ai, s, n, hi, hn, hchk, hproc, hend⟩ := session_eq P tInit es d o h
  obtain ⟨hs1, hs2, hs3, -, hs4⟩ := initRun_spec P d ai s hi
  have hii : s.itraj = i0 := by
    rcases hs1 with ⟨f, h1, -, h2, -⟩ | ⟨h1, h2, -⟩ <;> rcases hst with ⟨f', h3, -, h4, -⟩ | ⟨h3, h4, -⟩
    · rw [h1] at h3; cases h3; rw [h2, h4]
    · rw [h1] at h3; cases h3
    · rw [h1] at h3; cases h3
    · rw [h2, h4]
  have hit := stateN_itraj P hP es s n hn
  rw [hproc, hit.1, hii] at hkn
  have hct := check_true P d.stop tInit es[k] (stateN P es s k) (by rw [hchk k hk (by omega)])
  have het := hct.2.2.2.2
  unfold enoughTime at het
  rw [(stateN_itraj P hP es s k (by omega)).2, hs2, if_neg (by omega)] at het
  simp only [ge_iff_le, decide_eq_true_eq] at het
  have hM := maxTime_stateN P hP es s k (by omega) j hj (by omega)
  have hMpos : 0 < (stateN P es s k).maxTime := lt_of_lt_of_le hpos hM
  rw [Int.le_floor, le_div_iff₀ hMpos] at het
  push_cast at het
  nlinarith

/-! ## Nothing is measured if no trajectory is requested -/

/-- C77, violated: with zero requested trajectories nothing is measured (the loop has a branch to measure
without evolving which is never reached), whatever the measurements requested. -/
theorem C77_violated_ntraj_zero (P : Prog C A G L Line) (hP : P.ntrajTot = 0) (tInit : ℚ) (es : List Env)
    (d : Disk C A G Line) (o : Outcome C A G L Line) (h : session P tInit es d = some o)
    (i0 : Int) (c a ρ b) (hst : StartsFrom P d i0 c a ρ b) (hi0 : 0 ≤ i0) (p : String) :
    (applyAll o.acts d).texts p = d.texts p := by
  obtain ⟨ai, s, n, hi, hn, hchk, hproc, hend⟩ := session_eq P tInit es d o h
  obtain ⟨hs1, hs2, hs3, -, hs4⟩ := initRun_spec P d ai s hi
  have hii : s.itraj = i0 := by
    rcases hs1 with ⟨f, h1, -, h2, -⟩ | ⟨h1, h2, -⟩ <;> rcases hst with ⟨f', h3, -, h4, -⟩ | ⟨h3, h4, -⟩
    · rw [h1] at h3; cases h3; rw [h2, h4]
    · rw [h1] at h3; cases h3
    · rw [h1] at h3; cases h3
    · rw [h2, h4]
  have h0 : stateN P es s 0 = s := by simp [stateN]
  have hn0 : n = 0 := by
    by_contra hne
    have := (check_true P d.stop tInit es[0] (stateN P es s 0) (by rw [hchk 0 (by omega) (by omega)])).2.2.2.1
    rw [h0, hii, hP] at this; omega
  subst hn0
  rcases hend with ⟨-, -, ha⟩ | ⟨-, hlt, -, ha⟩
  · rw [ha, actsUpTo_zero, List.append_nil, texts_quiet (fun a ha => (hs4 a ha).1 _)]
  · rw [ha, actsUpTo_zero, List.nil_append, applyAll_append, applyAll_append]
    have hc : ∀ d : Disk C A G Line, (applyAll (closeActs P (stateN P es s 0)) d).texts p = d.texts p := by
      intro d; unfold closeActs; split <;> rfl
    rw [hc, texts_quiet (fun a ha => (check_quiet P d.stop tInit es[0] (stateN P es s 0) a ha).1 p),
      texts_quiet (fun a ha => (hs4 a ha).1 _)]

/-! ## Analysis -/

/-- The lines of a measurement for a list of configurations with their ids. -/
def expectedAn (m : GMeas C Line) (l : List (C × Int)) : List Line :=
  l.flatMap fun x =>
    if 0 < m.each ∧ m.after ≤ x.2 ∧ m.each ∣ x.2 - m.after then m.lines x.1 x.2 0 else []

theorem analysisLoop_spec (P : Prog C A G L Line) (tInit : ℚ) (d0 : Disk C A G Line) (m : GMeas C Line)
    (hm : OwnsFile P m) (cs : List String) (l : List (C × Int))
    (hcs : List.Forall₂ (fun p x => ∃ f, d0.confs p = some (.full f) ∧ f.conf = x.1 ∧ f.itraj = some x.2) cs l)
    (es : List Env) (hes : cs.length ≤ es.length) (hstop : ∀ e ∈ es, e.stop = false)
    (s : Proc C A G L) (hc : s.created = false) (hn : s.ntrajProd = 0) (d : Disk C A G Line) :
    (analysisLoop P tInit d0 cs es s).2.2 = true ∧
    ((applyAll (analysisLoop P tInit d0 cs es s).1 d).texts m.path).getD [] =
      (d.texts m.path).getD [] ++ expectedAn m l := by
  induction hcs generalizing es s d with
  | nil => simp [analysisLoop, applyAll_nil, expectedAn]
  | @cons p x cs l hx _ ih =>
    obtain ⟨f, hf, hfc, hfi⟩ := hx
    obtain ⟨e, es', rfl⟩ : ∃ e es', es = e :: es' := by
      cases es with
      | nil => simp at hes
      | cons e es' => exact ⟨e, es', rfl⟩
    have het : ∀ (s : Proc C A G L), s.ntrajProd = 0 → enoughTime P tInit e.tCheck s = true := by
      intro s hs; unfold enoughTime; rw [if_pos hs]
    have hes0 := hstop e List.mem_cons_self
    obtain ⟨pre, post, hg, h1, h2, h3⟩ := hm
    set s1 : Proc C A G L := { s with conf := f.conf, itraj := f.itraj.getD s.itraj, rat := f.rat.getD s.rat } with hs1
    set M := measurements P s1.created s1.conf s1.itraj 0 s1.rnd with hM
    have hun : analysisLoop P tInit d0 (p :: cs) (e :: es') s =
        (M.1 ++ (analysisLoop P tInit d0 cs es' { s1 with rnd := M.2 }).1,
          (analysisLoop P tInit d0 cs es' { s1 with rnd := M.2 }).2) := by
      rw [analysisLoop, hf]
      dsimp only
      rw [het _ (by exact hn), hes0]
      rfl
    have ih' := ih es' (by simpa using hes) (fun e' he' => hstop e' (List.mem_cons_of_mem _ he'))
      { s1 with rnd := M.2 } hc hn (applyAll M.1 d)
    rw [hun]
    refine ⟨ih'.1, ?_⟩
    rw [applyAll_append, ih'.2, hM,
      texts_measurements_gauge P _ _ _ _ _ m pre post hg h1 h2 h3]
    have hi1 : s1.itraj = x.2 := by rw [hs1]; simp [hfi]
    have hcc : s1.created = false := hc
    have hconf : s1.conf = x.1 := hfc
    rw [hi1, hcc, hconf]
    have hdue := measureIsDue_iff m.each m.after x.2
    by_cases hd : measureIsDue m.each m.after x.2 = true
    · rw [if_pos hd]
      simp only [expectedAn, List.flatMap_cons, if_pos (hdue.1 hd)]
      simp
    · rw [if_neg hd]
      simp only [expectedAn, List.flatMap_cons, if_neg (fun k => hd (hdue.2 k))]
      simp

/-- C77: analysis.  All the configurations of the list are measured with their ids and with acceptance 0,
and the lines are added at the end of the file of each measurement.  The time given to the program plays no
role: there is no hypothesis on the clock nor on the walltime. -/
theorem C77_analysis (P : Prog C A G L Line) (c0 : C) (tInit : ℚ) (d : Disk C A G Line) (m : GMeas C Line)
    (hm : OwnsFile P m) (cs : List String) (l : List (C × Int))
    (hcs : List.Forall₂ (fun p x => ∃ f, d.confs p = some (.full f) ∧ f.conf = x.1 ∧ f.itraj = some x.2) cs l)
    (es : List Env) (hes : cs.length ≤ es.length) (hstop : ∀ e ∈ es, e.stop = false) :
    (analysisSession P c0 tInit es cs d).2.2 = true ∧
    ((applyAll (analysisSession P c0 tInit es cs d).1 d).texts m.path).getD [] =
      (d.texts m.path).getD [] ++ expectedAn m l := by
  unfold analysisSession
  have h := analysisLoop_spec P tInit d m hm cs l hcs es hes hstop
    { conf := c0, itraj := 0, rat := P.noRat, rnd := (initRnd P d none).2, created := false, ntrajProd := 0,
      storedLast := false, maxTime := 0 } rfl rfl (applyAll (initRnd P d none).1 d)
  refine ⟨h.1, ?_⟩
  show ((applyAll ((initRnd P d none).1 ++ _) d).texts m.path).getD [] = _
  rw [applyAll_append, h.2, texts_quiet (fun a ha => (initRnd_quiet P d none a ha).1 _)]

end Nissa.Gen
