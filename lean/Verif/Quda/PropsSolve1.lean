import Verif.Quda.Solve
import Verif.Ib.PropsVertex3
import Mathlib.Tactic.Linarith

set_option linter.all false

/-! C80: history of the solves delegated to QUDA. -/

namespace Nissa.Quda

variable {C T : Type} [DecidableEq T]

/-- coefficient of the clover term asked -/
def ccOf (a : Ask C T) : Option ℚ := if a.csw = 0 then none else some (a.csw * a.kappa)

/-- what is held is coherent with a configuration and a clover coefficient -/
structure Held (s : Mem C T) (conf : C) (cc : Option ℚ) : Prop where
  gauge : s.lib.gauge = some conf
  clover : ∀ v, cc = some v → s.lib.clover = some (conf, v)
  mg : s.setup_valid = true → s.storedCloverCoeff = cc.getD 0 ∧
    s.lib.mg = some { builtOn := conf, op := { gauge := conf, clover := cc.map fun v => (conf, v), kappa := s.storedKappa, mu := s.storedMu } }

theorem asked_cc (a : Ask C T) : asked a = { gauge := a.conf, clover := (ccOf a).map fun v => (a.conf, v), kappa := a.kappa, mu := -a.mass } := by
  unfold asked ccOf; split <;> rfl

theorem invPar_cc (a : Ask C T) (h : 0 ≤ a.csw) : invPar a =
    { twistedClover := (ccOf a).isSome, clover_coeff := (ccOf a).getD 0, kappa := a.kappa, mu := -a.mass } := by
  unfold invPar ccOf
  by_cases h0 : a.csw = 0
  · rw [h0]; simp
  · have : a.csw > 0 := lt_of_le_of_ne h (Ne.symm h0)
    rw [if_pos this, if_neg h0]; rfl

theorem libOp_held {a : Ask C T} (h : 0 ≤ a.csw) {s : Mem C T} (hh : Held s a.conf (ccOf a)) : libOp (invPar a) s.lib = some (asked a) := by
  rw [invPar_cc a h, asked_cc]
  unfold libOp
  rw [hh.gauge]
  cases hc : ccOf a with
  | none => simp
  | some v => simp [hh.clover v hc]

theorem setupMg_held {a : Ask C T} (h : 0 ≤ a.csw) {s : Mem C T} (hh : Held s a.conf (ccOf a)) :
    ∃ s', setupMg (invPar a) s = some s' ∧ Held s' a.conf (ccOf a) ∧ s'.confTagOld = s.confTagOld ∧
      s'.lib.mg = some { builtOn := a.conf, op := asked a } := by
  have hl := libOp_held h hh
  have hp := invPar_cc a h
  have hm : (invPar a).mu = -a.mass := by rw [hp]
  have hk : (invPar a).kappa = a.kappa := by rw [hp]
  have hc : (invPar a).clover_coeff = (ccOf a).getD 0 := by rw [hp]
  unfold setupMg
  dsimp only
  by_cases hv : s.setup_valid = false
  · rw [if_pos hv, hl]
    have ha : (asked a).gauge = a.conf := rfl
    refine ⟨_, rfl, ⟨hh.gauge, hh.clover, ?_⟩, rfl, by rw [ha]⟩
    intro _
    refine ⟨hc, ?_⟩
    show some _ = some _
    rw [hm, hk, ha, asked_cc]
  · rw [if_neg hv]
    have hv' : s.setup_valid = true := by simpa using hv
    obtain ⟨m1, m2⟩ := hh.mg hv'
    by_cases hd : s.storedMu ≠ (invPar a).mu ∨ s.storedKappa ≠ (invPar a).kappa ∨ s.storedCloverCoeff ≠ (invPar a).clover_coeff
    · rw [if_pos hd, hl, m2]
      refine ⟨_, rfl, ⟨hh.gauge, hh.clover, ?_⟩, rfl, rfl⟩
      intro _
      refine ⟨hc, ?_⟩
      show some _ = some _
      rw [hm, hk, asked_cc]
    · rw [if_neg hd]
      have e1 : s.storedMu = -a.mass := by by_contra hx; exact hd (Or.inl (by rw [hm]; exact hx))
      have e2 : s.storedKappa = a.kappa := by by_contra hx; exact hd (Or.inr (Or.inl (by rw [hk]; exact hx)))
      have key : s.lib.mg = some { builtOn := a.conf, op := asked a } := by rw [m2, asked_cc, e1, e2]
      refine ⟨_, rfl, ⟨hh.gauge, hh.clover, ?_⟩, rfl, key⟩
      intro _
      refine ⟨hc, ?_⟩
      show s.lib.mg = _
      rw [key, asked_cc]
      show some _ = some _
      rw [hm, hk]

/-- from the state after the export on -/
theorem solve_from (o : Opt) {a : Ask C T} (h : 0 ≤ a.csw) {s s1 : Mem C T} {ex : Bool} (he : exportConf o a s = some (ex, s1))
    (hg : s1.lib.gauge = some a.conf) (hx : ex = true → s1.setup_valid = false) (hn : ex = false → Held s1 a.conf (ccOf a)) :
    ∃ x s', solve_tmD o a s = some (x, s') ∧ Right o a x ∧ Held s' a.conf (ccOf a) ∧ s'.confTagOld = s1.confTagOld := by
  have h2 : ∃ s2, maybeClover ex a s1 = some s2 ∧
      Held s2 a.conf (ccOf a) ∧ s2.confTagOld = s1.confTagOld := by
    unfold maybeClover
    cases ex with
    | false => simp only [Bool.false_eq_true, false_and, if_false]; exact ⟨s1, rfl, hn rfl, rfl⟩
    | true =>
      have hv := hx rfl
      by_cases hc : a.csw = 0
      · rw [if_neg (by simp [hc])]
        refine ⟨s1, rfl, ⟨hg, ?_, ?_⟩, rfl⟩
        · intro v hv'; unfold ccOf at hv'; rw [if_pos hc] at hv'; cases hv'
        · intro h'; rw [hv] at h'; cases h'
      · rw [if_pos ⟨rfl, hc⟩]
        unfold load_clover_term
        rw [hg]
        refine ⟨_, rfl, ⟨rfl, ?_, ?_⟩, rfl⟩
        · intro v hv'
          show some (a.conf, (invPar a).clover_coeff) = _
          rw [invPar_cc a h, hv']; rfl
        · intro h'
          change s1.setup_valid = true at h'
          rw [hv] at h'; cases h'
  obtain ⟨s2, e2, hh2, t2⟩ := h2
  unfold solve_tmD
  rw [he]
  dsimp only
  rw [e2]
  dsimp only
  by_cases hm : mgRequired o a.mass = true
  · obtain ⟨s3, e3, hh3, t3, m3⟩ := setupMg_held h hh2
    have hM : maybeMg o a s2 = some s3 := by unfold maybeMg; rw [if_pos hm, e3]
    rw [hM]
    dsimp only
    rw [libOp_held h hh3]
    refine ⟨_, _, rfl, ⟨rfl, ?_⟩, hh3, t3.trans t2⟩
    have hm' : o.use_multiGrid = true ∧ |a.mass| ≤ o.max_mass := by
      unfold mgRequired at hm; simpa using hm
    rw [if_pos hm', if_pos hm, m3]
  · have hM : maybeMg o a s2 = some s2 := by unfold maybeMg; rw [if_neg hm]
    rw [hM]
    dsimp only
    rw [libOp_held h hh2]
    refine ⟨_, _, rfl, ⟨rfl, ?_⟩, hh2, t2⟩
    have hm' : ¬ (o.use_multiGrid = true ∧ |a.mass| ≤ o.max_mass) := by
      unfold mgRequired at hm; simpa using hm
    rw [if_neg hm', if_neg hm]

/-- a solve, when the rule is to rely on the tag -/
theorem solve_step (o : Opt) (ho : o.rule = .doTheCheck) (hr : o.relyOnTag = true) {a : Ask C T} (h : 0 ≤ a.csw) {s : Mem C T}
    (hs : a.tag = s.confTagOld → Held s a.conf (ccOf a)) :
    ∃ x s', solve_tmD o a s = some (x, s') ∧ Right o a x ∧ Held s' a.conf (ccOf a) ∧ s'.confTagOld = a.tag := by
  by_cases ht : a.tag = s.confTagOld
  · have he : exportConf o a s = some (false, s) := by
      unfold exportConf; rw [ho]; dsimp only; rw [if_pos hr, if_neg (by simp [ht])]
    obtain ⟨x, s', h1, h2, h3, h4⟩ := solve_from o h he (hs ht).gauge (by simp) (fun _ => hs ht)
    exact ⟨x, s', h1, h2, h3, h4.trans ht.symm⟩
  · have he : exportConf o a s = some (true, { s with confTagOld := a.tag, lib := load_conf s.lib a.conf, setup_valid := false }) := by
      unfold exportConf; rw [ho]; dsimp only; rw [if_pos hr, if_pos ht]
    obtain ⟨x, s', h1, h2, h3, h4⟩ := solve_from o h he rfl (fun _ => rfl) (by simp)
    exact ⟨x, s', h1, h2, h3, h4⟩

theorem clover_cc {a b : Ask C T} (h1 : a.conf = b.conf) (h2 : (asked a).clover = (asked b).clover) : ccOf a = ccOf b := by
  rw [asked_cc, asked_cc] at h2
  dsimp only at h2
  cases ha : ccOf a <;> cases hb : ccOf b <;> rw [ha, hb] at h2 <;> simp at h2
  rw [h2.2]

theorem solves_from (o : Opt) (ho : o.rule = .doTheCheck) (hr : o.relyOnTag = true) :
    ∀ (l : List (Ask C T)) (s : Mem C T), (∀ a ∈ l, 0 ≤ a.csw) → Faithful l →
      (∀ a, l.head? = some a → a.tag = s.confTagOld → Held s a.conf (ccOf a)) →
      ∃ xs s', solves o l s = some (xs, s') ∧ List.Forall₂ (Right o) l xs
  | [], s, _, _, _ => ⟨[], s, rfl, List.Forall₂.nil⟩
  | a :: l, s, hp, hf, hs => by
    obtain ⟨x, s', h1, h2, h3, h4⟩ := solve_step o ho hr (hp a (by simp)) (hs a rfl)
    have hf' : Faithful l := by
      unfold Faithful at hf ⊢
      exact hf.tail
    obtain ⟨xs, s'', k1, k2⟩ := solves_from o ho hr l s' (fun b hb => hp b (by simp [hb])) hf' (by
      intro b hb hbt
      cases l with
      | nil => cases hb
      | cons b' l =>
        have : b' = b := by simpa using hb
        subst this
        unfold Faithful at hf
        have hr := (List.isChain_cons_cons.1 hf).1
        rw [h4] at hbt
        obtain ⟨q1, q2⟩ := hr hbt.symm
        rw [← q1, ← clover_cc q1 q2]
        exact h3)
    refine ⟨x :: xs, s'', ?_, List.Forall₂.cons h2 k2⟩
    unfold solves
    rw [h1]
    dsimp only [bind, Option.bind]
    rw [k1]

/-- C80: for every sequence of solves, of any configurations, masses, kappa and clover coefficients, if the tags are faithful, the
first one is not empty, and no clover coefficient is negative, each solve gives the solution with the operator it was asked, and the
multigrid is the one of that operator. -/
theorem C80_history (o : Opt) (ho : o.rule = .doTheCheck) (hr : o.relyOnTag = true) (e : T) (l : List (Ask C T))
    (hp : ∀ a ∈ l, 0 ≤ a.csw) (hf : Faithful l) (he : ∀ a, l.head? = some a → a.tag ≠ e) :
    ∃ xs s, solves o l (Mem.init e) = some (xs, s) ∧ List.Forall₂ (Right o) l xs :=
  solves_from o ho hr l _ hp hf (fun a ha ht => absurd ht (he a ha))

/-- C80: the same if the export is forced, without any hypothesis on the tags. -/
theorem C80_forced (o : Opt) (ho : o.rule = .forceExport) (l : List (Ask C T)) (hp : ∀ a ∈ l, 0 ≤ a.csw) (s : Mem C T) :
    ∃ xs s', solves o l s = some (xs, s') ∧ List.Forall₂ (Right o) l xs := by
  induction l generalizing s with
  | nil => exact ⟨[], s, rfl, List.Forall₂.nil⟩
  | cons a l ih =>
    have hx : exportConf o a s = some (true, { s with lib := load_conf s.lib a.conf, setup_valid := false }) := by
      unfold exportConf; rw [ho]
    obtain ⟨x, s', h1, h2, -, -⟩ := solve_from o (hp a (by simp)) hx rfl (fun _ => rfl) (by simp)
    obtain ⟨xs, s'', k1, k2⟩ := ih (fun b hb => hp b (by simp [hb])) s'
    refine ⟨x :: xs, s'', ?_, List.Forall₂.cons h2 k2⟩
    unfold solves
    rw [h1]
    dsimp only [bind, Option.bind]
    rw [k1]

/-- C80: if nothing tells how to recognise the configuration, the program stops (the comparison of the checksums is not
implemented) instead of solving with a wrong one. -/
theorem C80_no_tag (o : Opt) (ho : o.rule = .doTheCheck) (hr : o.relyOnTag = false) (a : Ask C T) (s : Mem C T) :
    solve_tmD o a s = none := by
  unfold solve_tmD exportConf
  rw [ho, hr]
  rfl

/-- C80: the condition on the tags is needed: if after a solve another one is asked with the same tag and another configuration,
the second one is done with the first configuration. -/
theorem C80_violated_same_tag (o : Opt) (ho : o.rule = .doTheCheck) (hr : o.relyOnTag = true) (a b : Ask C T) (s : Mem C T)
    (ha : 0 ≤ a.csw) (hs : a.tag ≠ s.confTagOld) (ht : b.tag = a.tag) (hk : b.kappa = a.kappa) (hc : b.csw = a.csw) (hm : b.mass = a.mass)
    (hd : b.conf ≠ a.conf) :
    ∃ x y s', solves o [a, b] s = some ([x, y], s') ∧ y.op.gauge = a.conf ∧ y.op = asked a ∧ ¬ Right o b y := by
  obtain ⟨x, s1, h1, h2, h3, h4⟩ := solve_step o ho hr ha (s := s) (fun h => absurd h hs)
  have e1 : exportConf o b s1 = exportConf o a s1 := by
    unfold exportConf; rw [ho]; dsimp only; rw [if_pos hr, if_pos hr, ht, if_neg (by simp [h4]), if_neg (by simp [h4])]
  have e2 : invPar b = invPar a := by unfold invPar; rw [hk, hc, hm]
  have e3 : solve_tmD o b s1 = solve_tmD o a s1 := by unfold solve_tmD maybeClover maybeMg; rw [e1, e2, hm, hc]
  obtain ⟨y, s2, k1, k2, k3, k4⟩ := solve_step o ho hr ha (s := s1) (fun _ => h3)
  refine ⟨x, y, s2, ?_, by rw [k2.1]; rfl, k2.1, ?_⟩
  · unfold solves solves solves
    rw [h1]
    dsimp only [bind, Option.bind]
    rw [e3, k1]
  · intro hR
    have := hR.1
    rw [k2.1] at this
    have : (asked a).gauge = (asked b).gauge := by rw [this]
    exact hd this.symm

end Nissa.Quda
