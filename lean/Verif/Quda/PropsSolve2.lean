import Verif.Quda.PropsSolve1
import Mathlib.Tactic.NormNum

set_option linter.all false

/-! C80: the solves of `ib`, and violations. -/

namespace Nissa.Quda

open Nissa.Vertex

section
variable {Pa V Ch Th A T : Type} [DecidableEq Ch] [DecidableEq Th] [DecidableEq T]

/-- Each path always names the same configuration (`F`), which is used with a single photon (`G`) by the solves with a charge: `p` and `a` are
the path and the photon at the beginning of the list. -/
def OneField (noCharge : Ch) (F : Pa → V) (G : Pa → A) : List (IbOp Pa V Ch Th A) → Pa → A → Prop
  | [], _, _ => True
  | .setup p c :: l, _, a => c = F p ∧ OneField noCharge F G l p a
  | .newPhoton a :: l, p, _ => OneField noCharge F G l p a
  | .solve ch _ _ _ :: l, p, a => (ch ≠ noCharge → a = G p) ∧ OneField noCharge F G l p a

/-- What the user asks: each solve has to be done on the last configuration loaded, with the boundary conditions asked, and if there is
a charge with the last photon generated. -/
def expected (E : IbEnv Pa V Ch Th A T) : List (IbOp Pa V Ch Th A) → Pa → V → A → List (Ask V T)
  | [], _, _, _ => []
  | .setup p c :: l, _, _, a => expected E l p c a
  | .newPhoton a :: l, p, c, _ => expected E l p c a
  | .solve ch th k m :: l, p, c, a =>
    { tag := E.tagOf p ch th
      conf := if ch = E.noCharge then E.adapt th c else E.addPhoton a ch (E.adapt th c)
      kappa := k, csw := E.cSW, mass := m } :: expected E l p c a

theorem updated_step (E : IbEnv Pa V Ch Th A T) (s : CSt Unit V Ch Th A)
    (h : s.inner_conf_valid = true → ∃ p, s.stored_conf = some p ∧ s.inner_conf = fresh E.adapt E.addPhoton E.noCharge (s.confs p) s.photon s.stored_charge s.stored_theta)
    (o : COp Unit V Ch Th A) :
    let s' := cstep E.adapt E.addPhoton E.noCharge s o
    s'.confs = lastConfs [o] s.confs ∧ s'.photon = lastPhoton [o] s.photon ∧
      (s'.inner_conf_valid = true → ∃ p, s'.stored_conf = some p ∧ s'.inner_conf = fresh E.adapt E.addPhoton E.noCharge (s'.confs p) s'.photon s'.stored_charge s'.stored_theta) :=
  crun_inv E.adapt E.addPhoton E.noCharge [o] s h

theorem ib_from (E : IbEnv Pa V Ch Th A T) (hrule : E.opt.rule = .doTheCheck) (hcsw : 0 ≤ E.cSW) (e : T)
    (hinj : ∀ p ch th p' ch' th', E.tagOf p ch th = E.tagOf p' ch' th' → p = p' ∧ ch = ch' ∧ th = th')
    (hne : ∀ p ch th, E.tagOf p ch th ≠ e) (F : Pa → V) (G : Pa → A) (κ : ℚ) :
    ∀ (l : List (IbOp Pa V Ch Th A)) (s : IbSt Pa V Ch Th A T),
      (∀ ch th k m, IbOp.solve ch th k m ∈ l → E.cSW ≠ 0 → k = κ) →
      OneField E.noCharge F G l s.path s.cs.photon → s.cs.confs () = F s.path →
      (s.cs.inner_conf_valid = true → ∃ p, s.cs.stored_conf = some p ∧ s.cs.inner_conf = fresh E.adapt E.addPhoton E.noCharge (s.cs.confs p) s.cs.photon s.cs.stored_charge s.cs.stored_theta) →
      (s.mem.confTagOld = e ∨ ∃ p ch th, s.mem.confTagOld = E.tagOf p ch th ∧
        Held s.mem (fresh E.adapt E.addPhoton E.noCharge (F p) (G p) ch th) (if E.cSW = 0 then none else some (E.cSW * κ))) →
      ∃ xs s', ibRun E l s = some (xs, s') ∧ xs.map Prod.fst = expected E l s.path (s.cs.confs ()) s.cs.photon ∧
        ∀ y ∈ xs, Right { E.opt with relyOnTag := true } y.1 y.2
  | [], s, _, _, _, _, _ => ⟨[], s, rfl, rfl, by simp⟩
  | .setup p c :: l, s, hk, h1, h2, h3, h4 => by
    obtain ⟨u1, u2, u3⟩ := updated_step E s.cs h3 (.setup fun _ => c)
    obtain ⟨xs, s', r1, r2, r3⟩ := ib_from E hrule hcsw e hinj hne F G κ l
      { s with path := p, cs := cstep E.adapt E.addPhoton E.noCharge s.cs (.setup fun _ => c) }
      (fun ch th k m hm => hk ch th k m (List.mem_cons_of_mem _ hm)) h1.2 h1.1 u3 h4
    refine ⟨xs, s', ?_, r2, r3⟩
    unfold ibRun ibStep
    dsimp only
    rw [r1]
    rfl
  | .newPhoton a :: l, s, hk, h1, h2, h3, h4 => by
    obtain ⟨u1, u2, u3⟩ := updated_step E s.cs h3 (.newPhoton a)
    obtain ⟨xs, s', r1, r2, r3⟩ := ib_from E hrule hcsw e hinj hne F G κ l
      { s with cs := cstep E.adapt E.addPhoton E.noCharge s.cs (.newPhoton a) }
      (fun ch th k m hm => hk ch th k m (List.mem_cons_of_mem _ hm)) h1 h2 u3 h4
    refine ⟨xs, s', ?_, r2, r3⟩
    unfold ibRun ibStep
    dsimp only
    rw [r1]
    rfl
  | .solve ch th k m :: l, s, hk, h1, h2, h3, h4 => by
    obtain ⟨u1, u2, u3⟩ := updated_step E s.cs h3 (.get ch th ())
    change ((get_updated_conf E.adapt E.addPhoton E.noCharge s.cs ch th ()).1.confs = s.cs.confs) at u1
    change ((get_updated_conf E.adapt E.addPhoton E.noCharge s.cs ch th ()).1.photon = s.cs.photon) at u2
    have hconf : (get_updated_conf E.adapt E.addPhoton E.noCharge s.cs ch th ()).2 =
        fresh E.adapt E.addPhoton E.noCharge (s.cs.confs ()) s.cs.photon ch th := by
      obtain ⟨q, hq, hi⟩ := u3 rfl
      change (get_updated_conf E.adapt E.addPhoton E.noCharge s.cs ch th ()).1.inner_conf = fresh E.adapt E.addPhoton E.noCharge
        ((get_updated_conf E.adapt E.addPhoton E.noCharge s.cs ch th ()).1.confs q) (get_updated_conf E.adapt E.addPhoton E.noCharge s.cs ch th ()).1.photon ch th at hi
      rw [u1, u2] at hi
      exact hi
    have hF : fresh E.adapt E.addPhoton E.noCharge (s.cs.confs ()) s.cs.photon ch th = fresh E.adapt E.addPhoton E.noCharge (F s.path) (G s.path) ch th := by
      rw [h2]
      unfold fresh
      by_cases hc : ch = E.noCharge
      · rw [if_pos hc, if_pos hc]
      · rw [if_neg hc, if_neg hc, h1.1 hc]
    let a : Ask V T := { tag := E.tagOf s.path ch th, conf := (get_updated_conf E.adapt E.addPhoton E.noCharge s.cs ch th ()).2, kappa := k, csw := E.cSW, mass := m }
    have hcc : ccOf a = if E.cSW = 0 then none else some (E.cSW * κ) := by
      show (if E.cSW = 0 then none else some (E.cSW * k)) = _
      by_cases hz : E.cSW = 0
      · rw [if_pos hz, if_pos hz]
      · rw [if_neg hz, if_neg hz, hk ch th k m (by simp) hz]
    have hac : a.conf = fresh E.adapt E.addPhoton E.noCharge (F s.path) (G s.path) ch th := hconf.trans hF
    obtain ⟨x, mem', q1, q2, q3, q4⟩ := solve_step { E.opt with relyOnTag := true } hrule rfl (a := a) hcsw (s := s.mem) (by
      intro ht
      rcases h4 with h4 | ⟨p', ch', th', t1, t2⟩
      · exact absurd (ht.trans h4) (hne _ _ _)
      · have ht' : E.tagOf s.path ch th = E.tagOf p' ch' th' := ht.trans t1
        obtain ⟨i1, i2, i3⟩ := hinj _ _ _ _ _ _ ht'
        subst i1; subst i2; subst i3
        rw [hcc, hac]
        exact t2)
    obtain ⟨xs, s', r1, r2, r3⟩ := ib_from E hrule hcsw e hinj hne F G κ l
      { s with cs := (get_updated_conf E.adapt E.addPhoton E.noCharge s.cs ch th ()).1, mem := mem' }
      (fun ch th k m hm => hk ch th k m (List.mem_cons_of_mem _ hm)) (by dsimp only; rw [u2]; exact h1.2) (by dsimp only; rw [u1]; exact h2) u3
      (Or.inr ⟨s.path, ch, th, q4, by rw [hcc, hac] at q3; exact q3⟩)
    refine ⟨(a, x) :: xs, s', ?_, ?_, ?_⟩
    · unfold ibRun ibStep
      dsimp only
      change solve_tmD { E.opt with relyOnTag := true } { tag := E.tagOf s.path ch th, conf := (get_updated_conf E.adapt E.addPhoton E.noCharge s.cs ch th ()).2, kappa := k, csw := E.cSW, mass := m } s.mem = _ at q1
      rw [q1]
      dsimp only
      rw [r1]
      rfl
    · rw [List.map_cons, r2]
      dsimp only
      rw [u1, u2]
      show a :: _ = _ :: _
      congr 1
      show Ask.mk _ _ _ _ _ = Ask.mk _ _ _ _ _
      rw [hconf]
      rfl
    · intro y hy
      rcases List.mem_cons.1 hy with rfl | hy
      · exact q2
      · exact r3 y hy

/-- C80: the solves of `ib` with QUDA.  If each path names a single configuration, charged solves on it all see the same photon,
all the propagators have the same kappa (if there is a clover term) and the tags are different for different
paths, charges or boundary conditions, the whole run is done without stopping and each solve is done with the operator it has to. -/
theorem C80_ib (E : IbEnv Pa V Ch Th A T) (hrule : E.opt.rule = .doTheCheck) (hcsw : 0 ≤ E.cSW) (e : T)
    (hinj : ∀ p ch th p' ch' th', E.tagOf p ch th = E.tagOf p' ch' th' → p = p' ∧ ch = ch' ∧ th = th')
    (hne : ∀ p ch th, E.tagOf p ch th ≠ e) (F : Pa → V) (G : Pa → A) (κ : ℚ) (p : Pa) (l : List (IbOp Pa V Ch Th A))
    (s : IbSt Pa V Ch Th A T) (hs : s.mem = Mem.init e)
    (hk : ∀ ch th k m, IbOp.solve ch th k m ∈ l → E.cSW ≠ 0 → k = κ) (hl : OneField E.noCharge F G l p s.cs.photon) :
    ∃ xs s', ibRun E (.setup p (F p) :: l) s = some (xs, s') ∧ xs.map Prod.fst = expected E l p (F p) s.cs.photon ∧
      ∀ y ∈ xs, Right { E.opt with relyOnTag := true } y.1 y.2 := by
  obtain ⟨xs, s', r1, r2, r3⟩ := ib_from E hrule hcsw e hinj hne F G κ l
    { s with path := p, cs := cstep E.adapt E.addPhoton E.noCharge s.cs (.setup fun _ => F p) } hk hl rfl
    (by intro h; exact absurd h (by simp [cstep])) (Or.inl (by rw [hs]; rfl))
  refine ⟨xs, s', ?_, r2, r3⟩
  unfold ibRun ibStep
  dsimp only
  rw [r1]
  rfl

end

/-! ## Violations -/

/-- An environment: boundary conditions and photons are written in a list of the configuration. -/
def exE (csw : ℚ) : IbEnv Nat (List Nat) Nat Nat Nat (Option (Nat × Nat × Nat)) :=
  { adapt := fun th v => (100 + th) :: v, addPhoton := fun a ch v => (1000 + 10 * a + ch) :: v, noCharge := 0
    tagOf := fun p ch th => some (p, ch, th), cSW := csw
    opt := { use_multiGrid := true, max_mass := 1, rule := .doTheCheck, relyOnTag := false } }

/-- The beginning. -/
def exS : IbSt Nat (List Nat) Nat Nat Nat (Option (Nat × Nat × Nat)) :=
  { path := 0
    cs := { confs := fun _ => [], photon := 0, inner_conf := [], inner_conf_valid := false, stored_conf := none, stored_charge := 0, stored_theta := 0 }
    mem := Mem.init none }

/-- configurations asked and used by the solves of a run -/
def used (r : Option (List (Ask (List Nat) (Option (Nat × Nat × Nat)) × Out (List Nat)) × IbSt Nat (List Nat) Nat Nat Nat (Option (Nat × Nat × Nat)))) :
    Option (List (List Nat × Op (List Nat))) := r.map fun r => r.1.map fun y => (y.1.conf, y.2.op)

/-- C80: two hits on the same configuration, each with its photon: in the second one the charged propagator is computed with the
photon of the first one, because the tag does not depend on the photon. -/
theorem C80_violated_photon :
    used (ibRun (exE 1) [.setup 7 [7], .newPhoton 1, .solve 2 0 (1/8) 0, .newPhoton 2, .solve 2 0 (1/8) 0] exS) =
      some [([1012, 100, 7], { gauge := [1012, 100, 7], clover := some ([1012, 100, 7], 1/8), kappa := 1/8, mu := 0 }),
            ([1022, 100, 7], { gauge := [1012, 100, 7], clover := some ([1012, 100, 7], 1/8), kappa := 1/8, mu := 0 })] := by
  decide +kernel

/-- C80: two propagators with different kappa: the second is computed with the clover coefficient of the first. -/
theorem C80_violated_kappa :
    used (ibRun (exE 1) [.setup 7 [7], .solve 0 0 (1/8) 0, .solve 0 0 (1/7) 0] exS) =
      some [([100, 7], { gauge := [100, 7], clover := some ([100, 7], 1/8), kappa := 1/8, mu := 0 }),
            ([100, 7], { gauge := [100, 7], clover := some ([100, 7], 1/8), kappa := 1/7, mu := 0 })] := by
  decide +kernel

/-- C80: the same path analysed twice, with a different configuration in memory (random gauge transformation): the second time the
first one is used. -/
theorem C80_violated_path :
    used (ibRun (exE 0) [.setup 7 [7], .solve 0 0 (1/8) 0, .setup 7 [8], .solve 0 0 (1/8) 0] exS) =
      some [([100, 7], { gauge := [100, 7], clover := none, kappa := 1/8, mu := 0 }),
            ([100, 8], { gauge := [100, 7], clover := none, kappa := 1/8, mu := 0 })] := by
  decide +kernel

/-- C80: a negative clover coefficient is ignored. -/
theorem C80_violated_negative :
    used (ibRun (exE (-1)) [.setup 7 [7], .solve 0 0 (1/8) 0] exS) =
      some [([100, 7], { gauge := [100, 7], clover := none, kappa := 1/8, mu := 0 })] := by
  decide +kernel

/-- C80: a solve without clover term followed by one with it, on the same configuration: QUDA has no clover term. -/
theorem C80_violated_clover (o : Opt) (ho : o.rule = .doTheCheck) (hr : o.relyOnTag = true) {C T : Type} [DecidableEq T] (e t : T) (ht : t ≠ e)
    (conf : C) (kappa csw mass : ℚ) (hc : 0 < csw) :
    solves o [{ tag := t, conf := conf, kappa := kappa, csw := 0, mass := mass }, { tag := t, conf := conf, kappa := kappa, csw := csw, mass := mass }]
      (Mem.init e) = none := by
  let a : Ask C T := { tag := t, conf := conf, kappa := kappa, csw := 0, mass := mass }
  let b : Ask C T := { tag := t, conf := conf, kappa := kappa, csw := csw, mass := mass }
  have hx : exportConf o a (Mem.init e) = some (true, { (Mem.init e : Mem C T) with confTagOld := t, lib := load_conf (Mem.init e).lib conf, setup_valid := false }) := by
    unfold exportConf; rw [ho]; dsimp only; rw [if_pos hr, if_pos (show a.tag ≠ (Mem.init e : Mem C T).confTagOld from ht)]
  have hcl : ∀ s', (maybeMg o a { (Mem.init e : Mem C T) with confTagOld := t, lib := load_conf (Mem.init e).lib conf, setup_valid := false }) = some s' →
      s'.lib.clover = none ∧ s'.lib.gauge = some conf ∧ s'.confTagOld = t := by
    intro s' h
    unfold maybeMg at h
    by_cases hm : mgRequired o a.mass = true
    · rw [if_pos hm] at h
      unfold setupMg libOp load_conf invPar at h
      simp [a] at h
      subst h
      exact ⟨rfl, rfl, rfl⟩
    · rw [if_neg hm] at h
      have := Option.some.inj h
      subst this
      exact ⟨rfl, rfl, rfl⟩
  have hbad : ∀ s' : Mem C T, s'.lib.clover = none → s'.lib.gauge = some conf → s'.confTagOld = t → solve_tmD o b s' = none := by
    intro s' c1 c2 c3
    have h1 : exportConf o b s' = some (false, s') := by
      unfold exportConf; rw [ho]; dsimp only; rw [if_pos hr, if_neg (by simp [b, c3])]
    have h2 : ∀ s'' : Mem C T, s''.lib.clover = none → libOp (invPar b) s''.lib = none := by
      intro s'' h
      have : invPar b = { twistedClover := true, clover_coeff := csw * kappa, kappa := kappa, mu := -mass } := by
        unfold invPar; rw [if_pos hc]
      rw [this]; unfold libOp
      cases s''.lib.gauge with
      | none => rfl
      | some g => simp [h]
    unfold solve_tmD
    rw [h1]
    dsimp only
    have h3 : maybeClover false b s' = some s' := by unfold maybeClover; simp
    rw [h3]
    dsimp only
    unfold maybeMg
    by_cases hm : mgRequired o b.mass = true
    · rw [if_pos hm]
      unfold setupMg
      rw [h2 s' c1]
      by_cases hv : s'.setup_valid = false
      · rw [if_pos hv]
      · rw [if_neg hv]
        dsimp only
        by_cases hd : s'.storedMu ≠ (invPar b).mu ∨ s'.storedKappa ≠ (invPar b).kappa ∨ s'.storedCloverCoeff ≠ (invPar b).clover_coeff
        · rw [if_pos hd]
        · rw [if_neg hd]
          dsimp only
          rw [h2 s' c1]
    · rw [if_neg hm]
      dsimp only
      rw [h2 s' c1]
  show solves o [a, b] (Mem.init e) = none
  unfold solves solves
  cases h : solve_tmD o a (Mem.init e) with
  | none => rfl
  | some y =>
    have : solve_tmD o b y.2 = none := by
      unfold solve_tmD at h
      rw [hx] at h
      dsimp only at h
      have h3 : ∀ s : Mem C T, maybeClover true a s = some s := by intro s; unfold maybeClover; simp [a]
      rw [h3] at h
      dsimp only at h
      cases hM : maybeMg o a { (Mem.init e : Mem C T) with confTagOld := t, lib := load_conf (Mem.init e).lib conf, setup_valid := false } with
      | none => rw [hM] at h; cases h
      | some s' =>
        rw [hM] at h
        dsimp only at h
        obtain ⟨k1, k2, k3⟩ := hcl s' hM
        cases hL : libOp (invPar a) s'.lib with
        | none => rw [hL] at h; cases h
        | some op =>
          rw [hL] at h
          have := Option.some.inj h
          rw [← this]
          exact hbad s' k1 k2 k3
    dsimp only [bind, Option.bind]
    rw [this]

/-- C80: the check of the residue.  By default (`check_inversion_residue=2`) the program goes on only if the residue, computed by nissa
with the configuration asked, is not above the threshold: a solution with a wrong operator stops the program. -/
theorem C80_residue (check : Int) (hc : 1 < check) (residue ref : ℚ) :
    residueCheck check (some residue) (some ref) = (if residue ≤ ref then .passed else .crashed) := by
  unfold residueCheck gtD
  rw [if_pos (by omega)]
  by_cases h : residue ≤ ref
  · simp [h]
  · rw [if_neg h]; simp [lt_of_not_ge h, hc]

/-- C80: but a solution which is not a number is accepted. -/
theorem C80_violated_nan (check : Int) (hc : 1 < check) (ref : Dbl) : residueCheck check none ref = .passed := by
  unfold residueCheck gtD
  rw [if_pos (by omega)]; simp

/-- A run which meets the hypotheses of `C80_ib`: two configurations, neutral and charged propagators with different masses, one
photon per configuration. -/
def exOk : List (IbOp Nat (List Nat) Nat Nat Nat) :=
  [.newPhoton 1, .solve 0 0 (1/8) 0, .solve 2 0 (1/8) 0, .solve 2 0 (1/8) (1/2), .solve 0 0 (1/8) 2, .setup 8 [8], .newPhoton 2,
   .solve 2 0 (1/8) 0, .solve 2 1 (1/8) 0]

example : OneField (exE 1).noCharge (fun p => [p]) (fun p => p - 6) exOk 7 0 ∧
    (∀ ch th k m, IbOp.solve ch th k m ∈ exOk → (exE 1).cSW ≠ 0 → k = 1/8) ∧
    ((used (ibRun (exE 1) (.setup 7 [7] :: exOk) exS)).map fun l => (l.length, l.all fun y => y.1 = y.2.gauge)) = some (6, true) := by
  refine ⟨by simp [exOk, OneField, exE], ?_, by decide +kernel⟩
  intro ch th k m h _
  simp [exOk] at h
  rcases h with h | h | h | h | h | h <;> (rw [h.2.2.1]; norm_num)

end Nissa.Quda
