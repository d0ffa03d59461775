import Verif.Generate.PropsRun5

set_option linter.all false

/-! C77: crashes.  A crash is a prefix of the list of actions of the session. -/

namespace Nissa.Gen

variable {C A G L Line : Type}

/-- Writing of the configuration p: once started it is finished before doing anything else. -/
inductive Paired (p : String) : List (Act C A G Line) → Prop
  | nil : Paired p []
  | skip (a l) : CQuiet p a → Paired p l → Paired p (a :: l)
  | pair (r l) : Paired p l → Paired p (Act.beginW p :: Act.endW p r :: l)

theorem Paired.append {p : String} {l l' : List (Act C A G Line)} (h : Paired p l) (h' : Paired p l') :
    Paired p (l ++ l') := by
  induction h with
  | nil => exact h'
  | skip a l ha _ ih => exact .skip a _ ha ih
  | pair r l _ ih => exact .pair r _ ih

theorem paired_quiet {p : String} {l : List (Act C A G Line)} (h : ∀ a ∈ l, CQuiet p a) : Paired p l := by
  induction l with
  | nil => exact .nil
  | cons a l ih => exact .skip a l (h a List.mem_cons_self) (ih (fun b hb => h b (List.mem_cons_of_mem _ hb)))

theorem paired_writeConf (p q : String) (s : Proc C A G L) :
    Paired p (writeConf q s : List (Act C A G Line)) := by
  unfold writeConf
  by_cases h : q = p
  · subst h; exact .pair _ _ .nil
  · exact .skip _ _ h (.skip _ _ h .nil)

theorem paired_body (P : Prog C A G L Line) (p : String) (e : Env) (s : Proc C A G L) :
    Paired p (body P e s).1 := by
  rw [body_acts]
  refine (Paired.append (Paired.append (paired_quiet ?_) ?_) ?_)
  · intro a ha
    obtain ⟨q, hq⟩ := measurements_textOf _ _ _ _ _ _ _ ha
    exact hq.cquiet
  · split
    · exact paired_writeConf _ _ _
    · exact .nil
  · split
    · exact paired_writeConf _ _ _
    · exact .nil

theorem paired_upTo (P : Prog C A G L Line) (p : String) (es : List Env) (s : Proc C A G L) (n : Nat)
    (hn : n ≤ es.length) : Paired p (actsUpTo P es s n) := by
  induction n with
  | zero => exact .nil
  | succ n ih =>
    rw [actsUpTo_succ, actsN_eq P es s n (by omega)]
    exact (ih (by omega)).append (paired_body P p _ _)

theorem paired_close (P : Prog C A G L Line) (p : String) (s : Proc C A G L) :
    Paired p (closeActs P s) := by
  unfold closeActs; split
  · exact paired_writeConf _ _ _
  · exact .nil

/-- A file after a crash: old, half written (and the crash is during that writing), or a complete one. -/
theorem Paired.crash {p : String} {l : List (Act C A G Line)} (h : Paired p l) (pre) (hpre : pre <+: l)
    (d : Disk C A G Line) :
    (applyAll pre d).confs p = d.confs p ∨
    ((applyAll pre d).confs p = some .torn ∧ pre.getLast? = some (.beginW p)) ∨
    ∃ r, Act.endW p r ∈ pre ∧ (applyAll pre d).confs p = some (.full r) := by
  induction h generalizing pre d with
  | nil =>
    rw [List.prefix_nil] at hpre; subst hpre; exact Or.inl rfl
  | skip a l ha _ ih =>
    rcases List.prefix_cons_iff.1 hpre with rfl | ⟨t, rfl, ht⟩
    · exact Or.inl rfl
    · rw [applyAll_cons]
      rcases ih t ht (a.apply d) with h | ⟨h1, h2⟩ | ⟨r, h1, h2⟩
      · left; rw [h, apply_cquiet ha]
      · right; left; refine ⟨h1, ?_⟩
        rw [List.getLast?_cons, h2]; rfl
      · right; right; exact ⟨r, List.mem_cons_of_mem _ h1, h2⟩
  | pair r l _ ih =>
    rcases List.prefix_cons_iff.1 hpre with rfl | ⟨t, rfl, ht⟩
    · exact Or.inl rfl
    · rcases List.prefix_cons_iff.1 ht with rfl | ⟨t', rfl, ht'⟩
      · right; left; refine ⟨?_, rfl⟩
        simp [applyAll, Act.apply]
      · rw [applyAll_cons, applyAll_cons]
        rcases ih t' ht' (Act.apply (.endW p r) (Act.apply (.beginW p) d)) with h | ⟨h1, h2⟩ | ⟨r', h1, h2⟩
        · right; right; refine ⟨r, by simp, ?_⟩
          rw [h]; simp [Act.apply]
        · right; left; refine ⟨h1, ?_⟩
          rw [List.getLast?_cons, List.getLast?_cons, h2]; rfl
        · right; right; exact ⟨r', by simp [h1], h2⟩

/-! ## Which configurations are written -/

theorem endW_body (P : Prog C A G L Line) (hp : ∀ i, P.storePath i ≠ P.path) (e : Env) (s : Proc C A G L) (r)
    (h : Act.endW P.path r ∈ (body P e s).1) : r = record (body P e s).2 := by
  rw [body_acts] at h
  simp only [List.mem_append] at h
  rcases h with (h | h) | h
  · obtain ⟨q, hq⟩ := measurements_textOf _ _ _ _ _ _ _ h
    exact absurd hq (by simp [TextOf])
  · split at h
    · unfold writeConf at h; simp at h; exact h
    · simp at h
  · split at h
    · unfold writeConf at h; simp at h; exact absurd h.1.symm (hp _)
    · simp at h

theorem endW_upTo (P : Prog C A G L Line) (hp : ∀ i, P.storePath i ≠ P.path) (es : List Env)
    (s : Proc C A G L) (n : Nat) (hn : n ≤ es.length) (r) (h : Act.endW P.path r ∈ actsUpTo P es s n) :
    ∃ k, 0 < k ∧ k ≤ n ∧ r = record (stateN P es s k) := by
  obtain ⟨k, hk, h⟩ := List.mem_flatMap.1 h
  rw [List.mem_range] at hk
  rw [actsN_eq P es s k (by omega)] at h
  exact ⟨k + 1, by omega, by omega, by rw [stateN_succ P es s k (by omega)]; exact endW_body P hp _ _ r h⟩

theorem endW_close (P : Prog C A G L Line) (s : Proc C A G L) (r)
    (h : Act.endW P.path r ∈ closeActs P s) : r = record s ∧ 0 < s.ntrajProd := by
  unfold closeActs at h
  split at h
  · rename_i hc
    simp only [Bool.and_eq_true, decide_eq_true_eq] at hc
    unfold writeConf at h; simp at h; exact ⟨h, hc.2⟩
  · simp at h

theorem quiet_no_endW {l : List (Act C A G Line)} {p r} (h : ∀ a ∈ l, ∀ p, CQuiet p a) : Act.endW p r ∉ l := by
  intro hr; exact h _ hr p rfl

/-! ## Text files -/

/-- The action does not truncate p. -/
def NoTrunc (p : String) : Act C A G Line → Prop
  | .trunc q => q ≠ p
  | _ => True

theorem text_grows {p : String} {l : List (Act C A G Line)} (h : ∀ a ∈ l, NoTrunc p a) (d : Disk C A G Line) :
    (d.texts p).getD [] <+: ((applyAll l d).texts p).getD [] := by
  induction l generalizing d with
  | nil => exact List.prefix_refl _
  | cons a l ih =>
    rw [applyAll_cons]
    refine List.IsPrefix.trans ?_ (ih (fun b hb => h b (List.mem_cons_of_mem _ hb)) _)
    have ha := h a List.mem_cons_self
    cases a with
    | trunc q => simp only [NoTrunc] at ha; simp [Act.apply, Ne.symm ha]
    | append q => simp only [Act.apply]; split
                  · rename_i h; subst h; simp
                  · exact List.prefix_refl _
    | line q x => simp only [Act.apply]; split
                  · rename_i h; subst h; simp
                  · exact List.prefix_refl _
    | beginW q => exact List.prefix_refl _
    | endW q r => exact List.prefix_refl _
    | touchStop => exact List.prefix_refl _
    | rmSeedNew => exact List.prefix_refl _

theorem noTrunc_output (p q : String) (ls : List Line) :
    ∀ a ∈ (output false q ls : List (Act C A G Line)), NoTrunc p a := by
  intro a ha
  unfold output at ha
  rcases List.mem_cons.1 ha with h | h
  · subst h; trivial
  · obtain ⟨x, -, rfl⟩ := List.mem_map.1 h; trivial

theorem noTrunc_measurements (P : Prog C A G L Line) (conf : C) (iconf acc : Int) (rnd : G × L) (p : String) :
    ∀ a ∈ (measurements P false conf iconf acc rnd).1, NoTrunc p a := by
  unfold measurements
  have key : ∀ (ts : List Nat) (s : List (Act C A G Line) × (G × L)), (∀ a ∈ s.1, NoTrunc p a) →
      ∀ a ∈ (ts.foldl (fermTheory P false conf iconf) s).1, NoTrunc p a := by
    intro ts
    induction ts with
    | nil => intro s hs; exact hs
    | cons t ts ih =>
      intro s hs
      rw [List.foldl_cons]
      apply ih
      unfold fermTheory
      split
      · generalize P.ferm = ms
        induction ms generalizing s with
        | nil => exact hs
        | cons m ms ihm =>
          rw [List.foldl_cons]
          apply ihm
          unfold fermOne
          split
          · intro a ha
            rcases List.mem_append.1 ha with h | h
            · exact hs a h
            · exact noTrunc_output _ _ _ a h
          · exact hs
      · exact hs
  apply key
  intro a ha
  unfold gaugeActs at ha
  obtain ⟨m, -, h⟩ := List.mem_flatMap.1 ha
  split at h
  · exact noTrunc_output _ _ _ a h
  · simp at h

theorem noTrunc_writeConf (p q : String) (s : Proc C A G L) :
    ∀ a ∈ (writeConf q s : List (Act C A G Line)), NoTrunc p a := by
  intro a ha; unfold writeConf at ha; simp at ha; rcases ha with rfl | rfl <;> trivial

theorem noTrunc_upTo (P : Prog C A G L Line) (hP : P.ntrajTot ≠ 0) (p : String) (es : List Env) (s : Proc C A G L)
    (hc : s.created = false) (n : Nat) (hn : n ≤ es.length) : ∀ a ∈ actsUpTo P es s n, NoTrunc p a := by
  intro a ha
  obtain ⟨k, hk, h⟩ := List.mem_flatMap.1 ha
  rw [List.mem_range] at hk
  have hcr : (stateN P es s k).created = false := by
    cases k with
    | zero => simpa [stateN] using hc
    | succ k => exact created_stateN P hP es s k (by omega)
  rw [actsN_eq P es s k (by omega), body_acts, hcr] at h
  simp only [List.mem_append] at h
  rcases h with (h | h) | h
  · exact noTrunc_measurements _ _ _ _ _ _ a h
  · split at h
    · exact noTrunc_writeConf _ _ _ a h
    · simp at h
  · split at h
    · exact noTrunc_writeConf _ _ _ a h
    · simp at h

theorem noTrunc_close (P : Prog C A G L Line) (p : String) (s : Proc C A G L) :
    ∀ a ∈ closeActs P s, NoTrunc p a := by
  intro a ha; unfold closeActs at ha; split at ha
  · exact noTrunc_writeConf _ _ _ a ha
  · simp at ha

/-- The actions of a session, in a form good for what follows. -/
theorem session_acts (P : Prog C A G L Line) (tInit : ℚ) (es : List Env) (d : Disk C A G Line)
    (o : Outcome C A G L Line) (h : session P tInit es d = some o) :
    ∃ ai s n chk cl, initRun P d = some (ai, s) ∧ n ≤ es.length ∧ o.proc = stateN P es s n ∧
      o.acts = ai ++ (actsUpTo P es s n ++ (chk ++ cl)) ∧
      (∀ a ∈ chk, (∀ p, Quiet p a) ∧ ∀ p, CQuiet p a) ∧ (cl = [] ∨ cl = closeActs P (stateN P es s n)) ∧
      (o.ended = false → n = es.length ∧ chk = [] ∧ cl = []) := by
  obtain ⟨ai, s, n, hi, hn, hchk, hproc, hend⟩ := session_eq P tInit es d o h
  rcases hend with ⟨he, hne, ha⟩ | ⟨he, hlt, -, ha⟩
  · exact ⟨ai, s, n, [], [], hi, hn, hproc, by simpa using ha, by simp, Or.inl rfl, fun _ => ⟨hne, rfl, rfl⟩⟩
  · refine ⟨ai, s, n, _, closeActs P (stateN P es s n), hi, hn, hproc, ?_,
      check_quiet P d.stop tInit es[n] (stateN P es s n), Or.inr rfl, fun h => by rw [he] at h; cases h⟩
    rw [ha]; simp

theorem quiet_noTrunc {l : List (Act C A G Line)} (h : ∀ a ∈ l, ∀ p, Quiet p a) (p : String) :
    ∀ a ∈ l, NoTrunc p a := by
  intro a ha
  have := h a ha p
  cases a <;> first | trivial | exact this

/-- C77: crash.  Whenever the process dies, the running configuration is the one of the beginning, or a
later configuration of the chain, or it is half written, and this only if the process died while writing
it; and if the session had started from a file, each measurement has in its file what it had before
followed by an initial part of what it would have written. -/
theorem C77_crash (P : Prog C A G L Line) (hP : P.ntrajTot ≠ 0) (hp : ∀ i, P.storePath i ≠ P.path)
    (tInit : ℚ) (es : List Env) (d : Disk C A G Line) (o : Outcome C A G L Line)
    (h : session P tInit es d = some o) :
    ∃ i0, ∃ n : Nat, ∃ h created, StartsFrom P d i0 (h.c 0) (h.rat 0) (h.rnd 0) created ∧ h.Steps P i0 n ∧
      o.proc.itraj = i0 + n ∧ ∀ pre, pre <+: o.acts →
        ((applyAll pre d).confs P.path = d.confs P.path ∨
         ((applyAll pre d).confs P.path = some .torn ∧ pre.getLast? = some (.beginW P.path)) ∨
         ∃ j : Nat, 0 < j ∧ j ≤ n ∧ (applyAll pre d).confs P.path = some (h.saved i0 j)) ∧
        (created = false → ∀ m, OwnsFile P m →
          (d.texts m.path).getD [] <+: ((applyAll pre d).texts m.path).getD [] ∧
          ((applyAll pre d).texts m.path).getD [] <+: (d.texts m.path).getD [] ++ expected m h i0 n) := by
  obtain ⟨ai, s, n, chk, cl, hi, hn, hproc, hacts, hchk, hcl, -⟩ := session_acts P tInit es d o h
  obtain ⟨hs1, hs2, hs3, -, hs4⟩ := initRun_spec P d ai s hi
  have hit := stateN_itraj P hP es s n hn
  have h0 : stateN P es s 0 = s := by simp [stateN]
  refine ⟨s.itraj, n, chainOf P es s, s.created, ?_, chainOf_steps P hP es s n hn, ?_, ?_⟩
  · show StartsFrom P d s.itraj (stateN P es s 0).conf (stateN P es s 0).rat (stateN P es s 0).rnd s.created
    rw [h0]; exact hs1
  · rw [hproc, hit.1]
  intro pre hpre
  constructor
  · have hpair : Paired P.path o.acts := by
      rw [hacts]
      refine (paired_quiet (fun a ha => (hs4 a ha).2 _)).append ((paired_upTo P _ es s n hn).append
        ((paired_quiet (fun a ha => (hchk a ha).2 _)).append ?_))
      rcases hcl with h | h
      · rw [h]; exact .nil
      · rw [h]; exact paired_close _ _ _
    rcases hpair.crash pre hpre d with h | h | ⟨r, hr, h⟩
    · exact Or.inl h
    · exact Or.inr (Or.inl h)
    · right; right
      have hr' : Act.endW P.path r ∈ o.acts := hpre.subset hr
      rw [hacts] at hr'
      simp only [List.mem_append] at hr'
      obtain ⟨k, hk1, hk2, hk⟩ : ∃ k, 0 < k ∧ k ≤ n ∧ r = record (stateN P es s k) := by
        rcases hr' with h | h | h | h
        · exact absurd h (quiet_no_endW (fun a ha => (hs4 a ha).2))
        · exact endW_upTo P hp es s n hn r h
        · exact absurd h (quiet_no_endW (fun a ha => (hchk a ha).2))
        · rcases hcl with hc | hc
          · rw [hc] at h; simp at h
          · rw [hc] at h
            have := endW_close P _ r h
            rw [hit.2, hs2] at this
            exact ⟨n, by omega, le_refl _, this.1⟩
      refine ⟨k, hk1, hk2, ?_⟩
      rw [h, hk, record_stateN P hP es s k (by omega)]
  · intro hc m hm
    have hnt : ∀ a ∈ o.acts, NoTrunc m.path a := by
      intro a ha
      rw [hacts] at ha
      simp only [List.mem_append] at ha
      rcases ha with h | h | h | h
      · exact quiet_noTrunc (fun a ha => (hs4 a ha).1) _ a h
      · exact noTrunc_upTo P hP _ es s hc n hn a h
      · exact quiet_noTrunc (fun a ha => (hchk a ha).1) _ a h
      · rcases hcl with hc | hc
        · rw [hc] at h; simp at h
        · rw [hc] at h; exact noTrunc_close _ _ _ a h
    obtain ⟨rest, hrest⟩ := hpre
    have hfull : ((applyAll o.acts d).texts m.path).getD [] =
        (d.texts m.path).getD [] ++ expected m (chainOf P es s) s.itraj n := by
      rw [hacts, applyAll_append, applyAll_append, applyAll_append]
      have hc' : ∀ d : Disk C A G Line, (applyAll cl d).texts m.path = d.texts m.path := by
        intro d
        rcases hcl with h | h
        · rw [h]; rfl
        · rw [h]; unfold closeActs; split <;> rfl
      rw [hc', texts_quiet (fun a ha => (hchk a ha).1 _), text_upTo P hP m hm es s _ n hn,
        if_neg (by rw [hc]; simp), texts_quiet (fun a ha => (hs4 a ha).1 _)]
    constructor
    · exact text_grows (fun a ha => hnt a (by rw [← hrest]; exact List.mem_append_left _ ha)) d
    · rw [← hfull, ← hrest, applyAll_append]
      exact text_grows (fun a ha => hnt a (by rw [← hrest]; exact List.mem_append_right _ ha)) _

theorem stateN_prefix (P : Prog C A G L Line) (es es' : List Env) (s : Proc C A G L) (k : Nat)
    (hk : k ≤ es.length) : stateN P (es ++ es') s k = stateN P es s k := by
  induction k generalizing es s with
  | zero => simp [stateN]
  | succ k ih => cases es with
    | nil => simp at hk
    | cons e es => exact ih es _ (by simpa using hk)

theorem actsUpTo_prefix (P : Prog C A G L Line) (es es' : List Env) (s : Proc C A G L) (n : Nat)
    (hn : n ≤ es.length) : actsUpTo P (es ++ es') s n = actsUpTo P es s n := by
  induction n with
  | zero => rfl
  | succ n ih =>
    rw [actsUpTo_succ, actsUpTo_succ, ih (by omega), actsN_eq P es s n (by omega),
      actsN_eq P (es ++ es') s n (by simp; omega), stateN_prefix P es es' s n (by omega),
      List.getElem_append_left (by omega)]

/-- C77: what can be lost.  If the running configuration is saved each r trajectories, and the process
dies at any point after having completed the iterations of es1 (and before the end of the session with
es1 ++ es2), then the running configuration is half written or it is not older than r trajectories. -/
theorem C77_lost (P : Prog C A G L Line) (hP : P.ntrajTot ≠ 0) (hp : ∀ i, P.storePath i ≠ P.path)
    (hr : 0 < P.storeRunning) (tInit : ℚ) (es1 es2 : List Env) (d : Disk C A G Line)
    (o1 o : Outcome C A G L Line) (h1 : session P tInit es1 d = some o1) (he1 : o1.ended = false)
    (h : session P tInit (es1 ++ es2) d = some o) (pre) (hpre1 : o1.acts <+: pre) (hpre : pre <+: o.acts)
    (i0 : Int) (c : C) (a : A) (ρ) (b) (hst : StartsFrom P d i0 c a ρ b) :
    (applyAll pre d).confs P.path = some .torn ∨
    (d.confs P.path = none ∧ (applyAll pre d).confs P.path = none ∧ o1.proc.itraj < P.storeRunning) ∨
    ∃ f i, (applyAll pre d).confs P.path = some (.full f) ∧ f.itraj.getD 0 = i ∧
      o1.proc.itraj - P.storeRunning < i := by
  obtain ⟨ai, s, n, chk, cl, hi, hn, hproc, hacts, hchk, hcl, -⟩ := session_acts P tInit _ d o h
  obtain ⟨ai1, s1, n1, chk1, cl1, hi1, hn1, hproc1, hacts1, -, -, hend1⟩ := session_acts P tInit _ d o1 h1
  rw [hi] at hi1; cases hi1
  obtain ⟨hn1e, rfl, rfl⟩ := hend1 he1
  obtain ⟨hs1, hs2, hs3, -, hs4⟩ := initRun_spec P d ai s hi
  have hii : s.itraj = i0 ∧ (d.confs P.path = none → s.itraj = 0) ∧
      ∀ f, d.confs P.path = some (.full f) → s.itraj = f.itraj.getD 0 := by
    rcases hs1 with ⟨f, h1, -, h2, -⟩ | ⟨h1, h2, -⟩ <;> rcases hst with ⟨f', h3, -, h4, -⟩ | ⟨h3, h4, -⟩
    · rw [h1] at h3; cases h3; refine ⟨by rw [h2, h4], (fun h => by rw [h1] at h; cases h), fun f' hf' => ?_⟩
      rw [h1] at hf'; cases hf'; exact h2
    · rw [h1] at h3; cases h3
    · rw [h1] at h3; cases h3
    · exact ⟨by rw [h2, h4], fun _ => h2, fun f hf => by rw [h1] at hf; cases hf⟩
  have hit1 := stateN_itraj P hP es1 s n1 hn1
  rw [hproc1, hit1.1]
  have hA1 : o1.acts = ai ++ actsUpTo P (es1 ++ es2) s n1 := by
    rw [hacts1, actsUpTo_prefix P es1 es2 s n1 hn1]; simp
  -- the running configuration after the iterations of es1
  obtain ⟨j, hj, hmax, hor⟩ := running_upTo P hP hp (es1 ++ es2) s (applyAll ai d) n1 (by simp; omega)
  have hjr : (n1 : Int) < j + P.storeRunning := by
    by_contra hcon
    push_neg at hcon
    -- a multiple of r in (j, j+r]
    obtain ⟨r, hrr⟩ : ∃ r : Nat, P.storeRunning = r := ⟨P.storeRunning.toNat, by omega⟩
    have hr0 : 0 < r := by omega
    have hmod := Int.emod_nonneg (s.itraj + j) (show P.storeRunning ≠ 0 by omega)
    have hmod2 := Int.emod_lt_of_pos (s.itraj + j) hr
    refine hmax (j + (P.storeRunning - (s.itraj + j) % P.storeRunning).toNat) (by omega) (by omega) ⟨by omega, ?_⟩
    have hcast : (((j + (P.storeRunning - (s.itraj + j) % P.storeRunning).toNat : Nat)) : Int) =
        j + (P.storeRunning - (s.itraj + j) % P.storeRunning) := by omega
    rw [hcast]
    have : s.itraj + (j + (P.storeRunning - (s.itraj + j) % P.storeRunning)) =
        P.storeRunning * ((s.itraj + j) / P.storeRunning + 1) := by
      have := Int.mul_ediv_add_emod (s.itraj + j) P.storeRunning
      rw [Int.mul_add]; omega
    rw [this]; exact Int.dvd_mul_right _ _
  have hbase : (applyAll o1.acts d).confs P.path = (applyAll (actsUpTo P (es1 ++ es2) s n1) (applyAll ai d)).confs P.path := by
    rw [hA1, applyAll_append]
  -- the rest
  obtain ⟨x, rfl⟩ := hpre1
  have hn1n : n1 ≤ n := by
    -- the larger session passes the same checks
    obtain ⟨ai', s', n', hi', hn', hck', hp', hend'⟩ := session_eq P tInit _ d o h
    obtain ⟨ai'', s'', n'', hi'', hn'', hck'', hp'', hend''⟩ := session_eq P tInit _ d o1 h1
    rw [hi] at hi' hi''; cases hi'; cases hi''
    have hnn : n' = n := by
      have e1 := hp'.symm.trans hproc
      have q1 := (stateN_itraj P hP (es1 ++ es2) s n' hn').1
      have q2 := (stateN_itraj P hP (es1 ++ es2) s n hn).1
      rw [e1, q2] at q1; omega
    have hnn'' : n'' = n1 := by
      have e1 := hp''.symm.trans hproc1
      have q1 := (stateN_itraj P hP es1 s n'' hn'').1
      have q2 := (stateN_itraj P hP es1 s n1 hn1).1
      rw [e1, q2] at q1; omega
    subst hnn hnn''
    by_contra hcon
    rcases hend' with ⟨-, hne, -⟩ | ⟨-, hlt, hck, -⟩
    · simp at hne; omega
    · have := hck'' n' (by omega) (by omega)
      rw [stateN_prefix P es1 es2 s n' (by omega), List.getElem_append_left (by omega), this] at hck
      cases hck
  have hsplit : o.acts = o1.acts ++ ((List.range' n1 (n - n1)).flatMap (actsN P (es1 ++ es2) s) ++ (chk ++ cl)) := by
    rw [hacts, hA1]
    have : actsUpTo P (es1 ++ es2) s n = actsUpTo P (es1 ++ es2) s n1 ++
        (List.range' n1 (n - n1)).flatMap (actsN P (es1 ++ es2) s) := by
      unfold actsUpTo
      rw [← List.flatMap_append, List.range_eq_range', List.range_eq_range']
      congr 1
      have e : n = n1 + (n - n1) := by omega
      conv => lhs; rw [e]
      have := @List.range'_append_1 0 n1 (n - n1)
      rw [Nat.zero_add] at this
      exact this.symm
    rw [this]; simp
  rw [hsplit, List.prefix_append_right_inj] at hpre
  have hpair : Paired P.path ((List.range' n1 (n - n1)).flatMap (actsN P (es1 ++ es2) s) ++ (chk ++ cl)) := by
    refine Paired.append ?_ ((paired_quiet (fun a ha => (hchk a ha).2 _)).append ?_)
    · have : ∀ ks : List Nat, (∀ k ∈ ks, k < (es1 ++ es2).length) → Paired P.path (ks.flatMap (actsN P (es1 ++ es2) s)) := by
        intro ks
        induction ks with
        | nil => intro _; exact .nil
        | cons k ks ih =>
          intro hk
          rw [List.flatMap_cons]
          refine Paired.append ?_ (ih (fun q hq => hk q (List.mem_cons_of_mem _ hq)))
          rw [actsN_eq P _ s k (hk k List.mem_cons_self)]; exact paired_body _ _ _ _
      apply this
      intro k hk
      rw [List.mem_range'_1] at hk
      omega
    · rcases hcl with h | h
      · rw [h]; exact .nil
      · rw [h]; exact paired_close _ _ _
  rw [applyAll_append]
  rcases hpair.crash x hpre (applyAll o1.acts d) with h | ⟨h, -⟩ | ⟨r, hrm, h⟩
  · rw [h, hbase]
    rcases hor with ⟨h0, hb⟩ | ⟨h0, -, -, hb⟩
    · rw [hb]
      rw [confs_quiet (fun a ha => (hs4 a ha).2 _)]
      cases hd : d.confs P.path with
      | none => right; left; refine ⟨rfl, rfl, ?_⟩; rw [hii.2.1 hd]; omega
      | some f => cases f with
        | torn => left; rfl
        | full f => right; right; refine ⟨f, _, rfl, rfl, ?_⟩; rw [← hii.2.2 f hd]; omega
    · rw [hb]; right; right
      exact ⟨_, _, rfl, rfl, by simp only [Option.getD_some]; omega⟩
  · left; exact h
  · right; right
    rw [h]
    refine ⟨r, _, rfl, rfl, ?_⟩
    have hrm' := hpre.subset hrm
    simp only [List.mem_append] at hrm'
    obtain ⟨k, hk1, hk2, hk⟩ : ∃ k, n1 ≤ k ∧ k ≤ n ∧ r = record (stateN P (es1 ++ es2) s k) := by
      rcases hrm' with h | h | h
      · obtain ⟨k, hk, h⟩ := List.mem_flatMap.1 h
        rw [List.mem_range'_1] at hk
        rw [actsN_eq P _ s k (by omega)] at h
        exact ⟨k + 1, by omega, by omega, by rw [stateN_succ P _ s k (by omega)]; exact endW_body P hp _ _ r h⟩
      · exact absurd h (quiet_no_endW (fun a ha => (hchk a ha).2))
      · rcases hcl with hc | hc
        · rw [hc] at h; simp at h
        · rw [hc] at h; exact ⟨n, hn1n, le_refl _, (endW_close P _ r h).1⟩
    rw [hk]
    simp only [record, Option.getD_some]
    rw [(stateN_itraj P hP _ s k (by omega)).1]
    omega

end Nissa.Gen
