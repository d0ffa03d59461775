import Verif.Hmc.PropsRhmc5

/-! # The step of the RHMC: it returns; accuracy of the initial action (C57) -/

set_option linter.all false

namespace Nissa.Rhmc
open Nissa.Lx Nissa.Sten Nissa.Su3f Nissa.Gauge Nissa.GForce Nissa.LSm Nissa.StD Nissa.Back Nissa.CgF Nissa.Inv Nissa.QForce Nissa.Omel Matrix Complex
open Nissa.Remez (RatApprox Discretiz FlavSpec root_needed set_expansions up up_inv Approximates numOf denOf errOf eigMin eigMax)
open scoped RealInnerProductSpace

noncomputable section

section
variable {g : Geo} (ok : g.Ok) (eo : EoOk g)
include ok eo

/-- C57: the step does not crash if the shifted poles are positive and the projection of the links on the group succeeds. -/
theorem C57_step_returns (A A' : ActEnv) (I : IntEnv) (S : Solvers) (hE : EnvOk g A A' I S) (gen : ℝ → ℝ → ℝ → Int → Int → RatApprox) (rank : Nat) (P : Pars) (C1 : ℝ) (hn : c1Of P.name = some C1)
    (tau : ℝ) (n m : Nat) (hn0 : 0 < n) (hm0 : 0 < m) (hP : P.evol = ⟨tau, n, m⟩) (qs : List Fla) (hq : ∀ q ∈ qs, q.Ok g) (hph : ∀ q ∈ qs, q.Phys g A.sched) (hc : ∀ q ∈ qs, q.cSW = 0)
    (H in_conf : EoConf) (hun : ∀ x ∈ box g.L, ∀ mu, (globEo g in_conf x mu)ᴴ * globEo g in_conf x mu = 1) (rat : Nat → RatApprox)
    (hpol : ∀ specs, List.Forall₂ SpecOf qs specs → Poles qs.length (shift_all_ROOT_STAG_poles qs (setExpansions gen g.nranks rank P.pf_action_residue P.md_residue specs rat) 1))
    (hproj : ∀ M, (su3_unitarize_maximal_trace_projecting I.reuni M I.precision I.niter_max).isSome) :
    ∃ diff out rat', multipseudo_rhmc_step g A A' I S gen rank P qs H in_conf rat = some (diff, out, rat') := by
  obtain ⟨specs, conf1, m1, m2, m3⟩ := C57_ranges ok eo A.J hE.sched qs hq hph in_conf (fun _ _ => rfl) hun
  have hpol := hpol specs m3
  unfold multipseudo_rhmc_step
  simp only
  rw [m1]
  simp only [Option.bind_some]
  set ratS := shift_all_ROOT_STAG_poles qs (setExpansions gen g.nranks rank P.pf_action_residue P.md_residue specs rat) 1 with hS
  obtain ⟨pfs, conf2, g1, g2, g3⟩ := C57_pseudofermions ok eo A.J hE.sched hE.gen qs hq ratS (fun i hi => hpol _ (by omega)) conf1 m2
  rw [g1]
  simp only [Option.bind_some]
  rw [full_given ok eo A hE.sched hE.schedH S.act P.name P.beta C1 hn conf2 H qs hc _ _ (noise2_nonneg ok eo qs)]
  simp only [Option.bind_some]
  have hf1 := flavours_ok (g := g) qs hq pfs hpol (which := 1) (by norm_num)
  have hf2 := flavours_ok (g := g) qs hq pfs hpol (which := 2) (by norm_num)
  have hT := theory_local ok eo P.beta C1 (qok g hf2)
  obtain ⟨H', U', h1, -⟩ := C51_full_trajectory ok eo hT (theory_quark ok eo A.J hE.force hf2 P.beta C1) I.E hE.int I.jq P.name hn tau n m hn0 hm0 H conf2
  change macroEvolution g I.E I.jq (qfOf g A.J S.force (flavours qs pfs ratS 2)) false P.name P.beta ⟨tau, n, m⟩ (H, conf2) = _ at h1
  have h2 : ∃ U2, Omelyan_integrator g I.E I.jq I.reuni I.precision I.niter_max (qfOf g A.J S.force (flavours qs pfs ratS 2)) false P.name P.beta P.evol (H, conf2) = some (H', U2) := by
    unfold Omelyan_integrator
    rw [hP, if_pos (by simp; omega), h1]
    simp only [Option.bind_some]
    unfold unitarize_eo_conf
    simp only
    rw [if_pos (fun rk _ par _ ivol _ mu => hproj _)]
    exact ⟨_, rfl⟩
  obtain ⟨U2, h2⟩ := h2
  rw [h2]
  simp only [Option.bind_some]
  obtain ⟨conf3, f1, f2⟩ := full_computed ok eo A' hE.sched' hE.schedH' hE.act P.name P.beta C1 hn U2 H' qs hc _ hf1 (-1) (by norm_num)
  rw [f1]
  exact ⟨_, _, _, rfl⟩

/-! ### Accuracy of the initial action of the pseudofermions -/

theorem actSpec_congr {V : Coords → Quad} {r : QForce.Rat} (hr : r.Ok) {phi psi : Coords → Col} (h : ∀ c ∈ boxP g 0, phi c = psi c) : actSpec g V r phi = actSpec g V r psi := by
  unfold actSpec
  rw [dot_congr h h]
  refine congrArg (fun s => r.cons * (dot (boxP g 0) psi psi).re + s) (congrArg List.sum (List.map_congr_left fun t ht => ?_))
  rw [dot_congr h (sol_links ok eo (fun _ _ => rfl) (hr t ht) h)]

omit ok eo in
theorem abs_sum_le {α β : Type} (R : α → β → Prop) (f : α → ℝ) (k : β → ℝ) (delta : ℝ) {l : List α} {l' : List β} (h : List.Forall₂ R l l')
    (hh : ∀ a b, a ∈ l → R a b → |k b - f a| ≤ delta * f a) : |(l'.map k).sum - (l.map f).sum| ≤ delta * (l.map f).sum := by
  induction h with
  | nil => simp
  | cons h0 _ ih =>
    rename_i a b l l' _
    simp only [List.map_cons, List.sum_cons]
    have e1 := hh a b (by simp) h0
    have e2 := ih fun a' b' ha => hh a' b' (by simp [ha])
    rw [show k b + (l'.map k).sum - (f a + (l.map f).sum) = (k b - f a) + ((l'.map k).sum - (l.map f).sum) by ring]
    refine (abs_add_le _ _).trans ?_
    linarith

/-- C57: if on each eigenvalue of the operator of each flavour the square of the function used to generate times the one of the action is 1
within `delta`, the action of the pseudofermions on the initial configuration is the square norm of the noises, which the step uses in its
place, within `delta`. -/
theorem C57_initial_action (U : Coords → Quad) (qs : List Fla) (rat : Nat → RatApprox) (hr : Poles qs.length rat) (pfs : List (List EvnFld)) (hg : Generated g U rat 0 qs pfs) (delta : ℝ)
    (h : ∀ i q, qs[i]? = some q → ∀ lam, Eig g (dress (globEo g q.u1b) U) lam → |ratFun (toRat (rat (3 * i))) lam ^ 2 * ratFun (toRat (rat (3 * i + 1))) lam - 1| ≤ delta) :
    |quarkAction g ((flavours qs pfs rat 1).map (globFl g)) U - noise2 g qs| ≤ delta * noise2 g qs := by
  have key : ∀ (qs : List Fla) (pfs : List (List EvnFld)) (i : Nat), (∀ k, 3 * i ≤ k → k < 3 * (i + qs.length) → (toRat (rat k)).Ok) → Generated g U rat i qs pfs →
      (∀ j q, qs[j]? = some q → ∀ lam, Eig g (dress (globEo g q.u1b) U) lam → |ratFun (toRat (rat (3 * (i + j)))) lam ^ 2 * ratFun (toRat (rat (3 * (i + j) + 1))) lam - 1| ≤ delta) →
      |quarkAction g ((((qs.zip pfs).zipIdx i).map fun qi => (⟨decide (qi.1.1.discretiz = .ROOT_STAG), qi.1.1.u1b, toRat (rat (3 * qi.2 + 1)), qi.1.2⟩ : Flavour)).map (globFl g)) U - noise2 g qs| ≤ delta * noise2 g qs := by
    intro qs
    induction qs with
    | nil =>
      intro pfs i _ hg _
      cases pfs with
      | nil => simp [quarkAction, noise2]
      | cons pf pfs => exact absurd hg (by simp [Generated])
    | cons q qs ih =>
      intro pfs i hr hg h
      cases pfs with
      | nil => exact absurd hg (by simp [Generated])
      | cons pf pfs =>
        obtain ⟨h1, h2⟩ := hg
        have e2 := ih pfs (i + 1) (fun k a b => hr k (by omega) (by simp only [List.length_cons]; omega)) h2 (fun j q' hj lam he => by
          have := h (j + 1) q' (by simpa using hj) lam he
          rwa [show i + (j + 1) = i + 1 + j by omega] at this)
        have hra := hr (3 * i + 1) (by omega) (by simp only [List.length_cons]; omega)
        have hrg := hr (3 * i) (by omega) (by simp only [List.length_cons]; omega)
        have e1 := abs_sum_le _ (fun eta : EvnFld => (dot (boxP g 0) (globH g eta) (globH g eta)).re)
          (fun p : EvnFld => actSpec g (dress (globEo g q.u1b) U) (toRat (rat (3 * i + 1))) (globH g p)) delta h1 (fun eta p _ hp => by
            rw [actSpec_congr ok eo hra hp]
            refine C57_heat_bath ok eo _ hra hrg _ delta fun lam he => ?_
            have := h 0 q (by simp) lam he
            simpa using this)
        have e3 : ∀ l : List Quark, ∀ x : Quark, quarkAction g (x :: l) U = (x.phi.map fun phi => actSpec g (dress x.u U) x.appr phi).sum + quarkAction g l U := fun l x => by simp [quarkAction]
        simp only [List.zip_cons_cons, List.zipIdx_cons, List.map_cons]
        rw [e3]
        have e4 : noise2 g (q :: qs) = (q.etas.map fun eta => (dot (boxP g 0) (globH g eta) (globH g eta)).re).sum + noise2 g qs := by simp [noise2]
        rw [e4]
        simp only [globFl, List.map_map, Function.comp_def] at e2 ⊢
        rw [add_sub_add_comm, mul_add]
        exact (abs_add_le _ _).trans (add_le_add e1 e2)
  exact key qs pfs 0 (fun k _ hk => hr k (by omega)) hg (fun j q hj lam he => by simpa using h j q hj lam he)

omit ok eo in
/-- product of three quantities near to 1 -/
theorem near_one {a b eps : ℝ} (h0 : 0 ≤ eps) (ha : |a - 1| ≤ eps) (hb : |b - 1| ≤ eps) (h1 : eps ≤ 1) : |a ^ 2 * b - 1| ≤ (1 + eps) ^ 3 - 1 := by
  rw [abs_le] at ha hb ⊢
  have a1 : 0 ≤ a := by linarith
  have b1 : 0 ≤ b := by linarith
  have a2 : a ^ 2 ≤ (1 + eps) ^ 2 := pow_le_pow_left₀ a1 (by linarith) 2
  have a3 : (1 - eps) ^ 2 ≤ a ^ 2 := pow_le_pow_left₀ (by linarith) (by linarith) 2
  have u : a ^ 2 * b ≤ (1 + eps) ^ 2 * (1 + eps) := mul_le_mul a2 (by linarith) b1 (by positivity)
  have l : (1 - eps) ^ 2 * (1 - eps) ≤ a ^ 2 * b := mul_le_mul a3 (by linarith) (by linarith) (by positivity)
  constructor
  · nlinarith [sq_nonneg eps]
  · nlinarith

omit ok eo in
/-- C57: if the approximations of a flavour are those of `C56_accurate`, within `eps` of their powers, and the eigenvalue is in the range of
the approximations, the square of the function used to generate times the one of the action is 1, within `(1+eps)³-1`. -/
theorem C57_accuracy {q : Fla} (hs : q.discretiz = .ROOT_STAG) (hpf : q.etas ≠ []) {s : FlavSpec} (h : SpecOf q s) (hm : 0 < q.mass) (ag aa : RatApprox) (eps : ℝ) (he0 : 0 ≤ eps) (he1 : eps ≤ 1)
    (h0 : Approximates ag ((numOf s : ℝ) / denOf s 0) eps (eigMin s) (eigMax s)) (h1 : Approximates aa ((numOf s : ℝ) / denOf s 1) eps (eigMin s) (eigMax s))
    {lam : ℝ} (hl0 : 0 ≤ lam) (hl : lam + q.mass ^ 2 ≤ eigMax s) :
    |ratFun (toRat (shift_all_poles ag (q.mass ^ 2))) lam ^ 2 * ratFun (toRat (shift_all_poles aa (q.mass ^ 2))) lam - 1| ≤ (1 + eps) ^ 3 - 1 := by
  rw [ratFun_shift, ratFun_shift]
  set y := lam + q.mass ^ 2 with hy
  have hmin : eigMin s = q.mass ^ 2 := by unfold Remez.eigMin; rw [h.mass]
  have hpos : 0 < y := by have := pow_pos hm 2; linarith
  have k0 := h0 y (by rw [hmin]; linarith) hl
  have k1 := h1 y (by rw [hmin]; linarith) hl
  set e0 := (numOf s : ℝ) / denOf s 0 with hexp0
  set e1 := (numOf s : ℝ) / denOf s 1 with hexp1
  have hn : ((s.npf : ℤ) : ℝ) ≠ 0 := by
    rw [h.npf]
    have : q.etas.length ≠ 0 := by simpa using hpf
    exact_mod_cast this
  have hsum : 2 * e0 + e1 = 0 := by
    rw [hexp0, hexp1]
    unfold Remez.denOf Remez.extra_fact
    rw [h.discretiz, hs]
    simp only [Remez.root_needed]
    push_cast
    push_cast at hn
    simp
    field_simp
    norm_num
  have p0 : 0 < y ^ e0 := Real.rpow_pos_of_pos hpos _
  have p1 : 0 < y ^ e1 := Real.rpow_pos_of_pos hpos _
  have hone : (y ^ e0) ^ 2 * y ^ e1 = 1 := by
    rw [← Real.rpow_natCast, ← Real.rpow_mul hpos.le, ← Real.rpow_add hpos]
    push_cast
    rw [mul_comm e0, hsum, Real.rpow_zero]
  have q0 : |ag.eval y / y ^ e0 - 1| ≤ eps := by
    rw [div_sub_one p0.ne', abs_div, abs_of_pos p0, div_le_iff₀ p0]
    exact k0
  have q1 : |aa.eval y / y ^ e1 - 1| ≤ eps := by
    rw [div_sub_one p1.ne', abs_div, abs_of_pos p1, div_le_iff₀ p1]
    exact k1
  have := near_one he0 q0 q1 he1
  rwa [div_pow, div_mul_div_comm, hone, div_one] at this

end

end

end Nissa.Rhmc
