import Verif.Hmc.QuarkEnergy
import Verif.Inverters.PropsCgm

/-! # Pseudofermions: trajectories, energy, accuracy of the action -/

set_option linter.all false

namespace Nissa.QForce
open Nissa.Lx Nissa.Sten Nissa.Su3f Nissa.Gauge Nissa.GForce Nissa.Paths Nissa.LSm Nissa.Stap Nissa.StD Nissa.Back Nissa.CgF Nissa.Inv Nissa.Omel Matrix Complex
open scoped RealInnerProductSpace Topology

noncomputable section

/-- the quark force used to move the momenta.  `/repo/src/hmc/multipseudo/multipseudo_rhmc_step.cpp` through
`evolve_momenta_with_quark_force`, `/repo/src/hmc/multipseudo/Omelyan_integrator.cpp:16-45` -/
def qfOf (g : Geo) (J : Junk) (solve : Solver) (fl : List Flavour) : EoConf → EoConf := fun conf => ((compute_quark_force g J solve conf fl).map (·.1)).getD fun _ _ _ _ => 0

/-- Specification: gauge theory with the force of the pseudofermions -/
def theoryOf (g : Geo) (beta C1 : ℝ) (qs : List Quark) : Theory := ⟨beta, C1, quarkForce g qs⟩

section
variable {g : Geo} (ok : g.Ok) (eo : EoOk g)
include ok eo

omit ok eo in
theorem qok (g : Geo) {fl : List Flavour} (hf : ∀ f ∈ fl, f.Ok g) : QOk (fl.map (globFl g)) := by
  intro q hq
  obtain ⟨f, hff, rfl⟩ := List.mem_map.1 hq
  exact (hf f hff).poles

theorem theory_local (beta C1 : ℝ) {qs : List Quark} (hq : QOk qs) : (theoryOf g beta C1 qs).Local g := fun U V h x hx => quarkForce_links ok eo hq h hx

omit ok eo in
theorem theory_algebra (beta C1 : ℝ) (qs : List Quark) : (theoryOf g beta C1 qs).Algebra g := fun U x _ mu => quarkForce_alg qs U x mu

theorem theory_quark (J : Junk) {solve : Solver} (hs : Exact g solve) {fl : List Flavour} (hf : ∀ f ∈ fl, f.Ok g) (beta C1 : ℝ) :
    QuarkIs g (qfOf g J solve fl) (theoryOf g beta C1 (fl.map (globFl g))) := by
  intro U x hx
  obtain ⟨F, conf', h1, h2⟩ := C52_quark_force ok eo J hs U fl hf
  unfold qfOf
  rw [h1]
  funext mu
  exact (h2 x hx).2 mu

theorem theory_cont (beta C1 : ℝ) {qs : List Quark} (hq : QOk qs) : TCont g (theoryOf g beta C1 qs) := fun U hU x hx mu => quark_cont ok eo hq hU hx mu

/-- C52: the momenta stay in the algebra and the trajectory can be travelled back, with the force of the pseudofermions computed by the program. -/
theorem C52_reversible (J : Junk) {solve : Solver} (hs : Exact g solve) (fl : List Flavour) (hf : ∀ f ∈ fl, f.Ok g)
    (E E' : Nat → Nat → Env) (hE : ∀ n k, (E n k).Ok) (hE' : ∀ n k, (E' n k).Ok) (jq jq' : Quad) (name : ActName) (beta C1 : ℝ)
    (hn : c1Of name = some C1) (tau : ℝ) (n m : Nat) (hn0 : 0 < n) (hm : 0 < m) (H U : EoConf)
    (hH : ∀ x ∈ box g.L, ∀ mu, (globEo g H x mu)ᴴ = globEo g H x mu ∧ (globEo g H x mu).trace = 0) :
    ∃ H' U', macroEvolution g E jq (qfOf g J solve fl) false name beta ⟨tau, n, m⟩ (H, U) = some (H', U') ∧
      (∀ x ∈ box g.L, ∀ mu, (globEo g H' x mu)ᴴ = globEo g H' x mu ∧ (globEo g H' x mu).trace = 0) ∧
      ∃ H'' U'', macroEvolution g E' jq' (qfOf g J solve fl) false name beta ⟨tau, n, m⟩ (fun rk p e mu => -H' rk p e mu, U') = some (H'', U'') ∧
        (Fair g (theoryOf g beta C1 (fl.map (globFl g))) (fullTraj tau n m) (globEo g H, globEo g U) →
          ∀ x ∈ box g.L, ∀ mu, globEo g H'' x mu = -globEo g H x mu ∧ globEo g U'' x mu = globEo g U x mu) := by
  have hT := theory_local ok eo beta C1 (qok g hf)
  have hA := theory_algebra (g := g) beta C1 (fl.map (globFl g))
  have hq := theory_quark ok eo J hs hf beta C1
  obtain ⟨H', U', h1, -⟩ := C51_full_trajectory ok eo hT hq E hE jq name hn tau n m hn0 hm H U
  obtain ⟨H'', U'', h2, -⟩ := C51_full_trajectory ok eo hT hq E' hE' jq' name hn tau n m hn0 hm (fun rk p e mu => -H' rk p e mu) U'
  refine ⟨H', U', h1, (C51_stays_in_group ok eo hT hA hq E hE jq name hn tau n m hn0 hm H U H' U' hH h1).1, H'', U'', h2, fun hr => ?_⟩
  exact C51_reversible ok eo hT hA hq E E' hE hE' jq jq' name hn tau n m hn0 hm H U H' U' H'' U'' hH hr h1 h2

omit ok eo in
theorem actSpec_links (ok : g.Ok) (eo : EoOk g) {U V : Coords → Quad} (h : ∀ x ∈ box g.L, U x = V x) {r : Rat} (hr : r.Ok) (phi : Coords → Col) : actSpec g U r phi = actSpec g V r phi := by
  unfold actSpec
  refine congrArg (fun s => r.cons * (dot (boxP g 0) phi phi).re + s) (congrArg List.sum (List.map_congr_left fun t ht => ?_))
  rw [dot_congr (fun _ _ => rfl) (sol_links ok eo h (hr t ht) fun _ _ => rfl)]

theorem quarkAction_links {qs : List Quark} (hq : QOk qs) {U V : Coords → Quad} (h : ∀ x ∈ box g.L, U x = V x) : quarkAction g qs U = quarkAction g qs V := by
  unfold quarkAction
  exact congrArg List.sum (List.map_congr_left fun q hqq => congrArg List.sum (List.map_congr_left fun phi _ =>
    actSpec_links ok eo (dress_links (fun _ _ => rfl) h) (hq q hqq) phi))

/-- C52: conservation of the energy at first order: the sum of `momenta_action`, `gluonic_action` and `compute_quark_action` at the end of a
trajectory of length `tau`, done with any number of steps, has vanishing derivative with respect to `tau` in `tau=0`. -/
theorem C52_trajectory_energy (J : Junk) {solve : Solver} (hs : Exact g solve) (fl : List Flavour) (hf : ∀ f ∈ fl, f.Ok g)
    (E : Nat → Nat → Env) (hE : ∀ n k, (E n k).Ok) (jq jv : Quad) (ji : Nat) (jp : ℝ × ℝ) {sched : Nat → Nat → List Nat} (hl : ∀ rk, Reduce.Legal (sched rk))
    {sched' : Nat → Nat → Nat → List Nat} (hl' : ∀ p rk, Reduce.Legal (sched' p rk)) (name : ActName) (hn : name ≠ .unspec) (beta : ℝ)
    (n m : Nat) (hn0 : 0 < n) (hm : 0 < m) (H U : EoConf)
    (hH : ∀ x ∈ box g.L, ∀ mu, (globEo g H x mu)ᴴ = globEo g H x mu ∧ (globEo g H x mu).trace = 0) :
    ∃ K S Q : ℝ → ℝ, (∀ tau, ∃ H' U' conf', macroEvolution g E jq (qfOf g J solve fl) false name beta ⟨tau, n, m⟩ (H, U) = some (H', U') ∧
      momenta_action g sched' H' = K tau ∧ gluonic_action_eo g ji jv jp sched U' name beta = some (S tau) ∧
      compute_quark_action g J sched solve U' fl = some (Q tau, conf')) ∧ HasDerivAt (fun tau => K tau + S tau + Q tau) 0 0 := by
  obtain ⟨C1, hC⟩ : ∃ C1, c1Of name = some C1 := by cases name; exact absurd rfl hn; all_goals exact ⟨_, rfl⟩
  have hqs := qok g hf
  have hT := theory_local ok eo beta C1 hqs
  have hq := theory_quark ok eo J hs hf beta C1
  set T := theoryOf g beta C1 (fl.map (globFl g)) with hTdef
  set st : ℝ → State := fun tau => runs g T (fullTraj tau n m) (globEo g H, globEo g U) with hst
  refine ⟨fun tau => kinSpec g (st tau).1, fun tau => actionSpec beta C1 g (st tau).2, fun tau => quarkAction g (fl.map (globFl g)) (st tau).2, ?_, ?_⟩
  · intro tau
    obtain ⟨H', U', h1, h2⟩ := C51_full_trajectory ok eo hT hq E hE jq name hC tau n m hn0 hm H U
    obtain ⟨conf', h3, -⟩ := C52_quark_action ok eo J hl hs U' fl hf
    refine ⟨H', U', conf', h1, ?_, ?_, ?_⟩
    · rw [C50_momenta_action ok eo sched' hl']
      exact kinSpec_congr fun x hx => (h2 x hx).1
    · rw [C50_gluonic_action_eo ok eo ji jv jp sched hl, hC]
      simp only [Option.map_some, Option.some.injEq]
      unfold actionSpec
      congr 1
      refine Finset.sum_congr rfl fun x hx => ?_
      have hp : pathProd g (globEo g U') x = pathProd g (st tau).2 x := funext fun l => Nissa.Clv.pathProd_congr ok (fun y hy => (h2 y hy).2) l hx
      rw [hp]
    · rw [h3, quarkAction_links ok eo hqs (fun y hy => (h2 y hy).2)]
  · obtain ⟨t1, t2, t3⟩ := C51_times 1 n m hn0 hm
    have hd := runs_deriv ok (theory_cont ok eo beta C1 hqs) (globEo g H, globEo g U) (fullTraj 1 n m)
    have hs0 : st 0 = (globEo g H, globEo g U) := by
      rw [hst]
      simp only
      rw [traj_scale 0 n m, runs_zero]
    have hs1 : st = fun t => runs g T ((fullTraj 1 n m).map (scale t)) (globEo g H, globEo g U) := by
      funext t
      rw [hst]
      simp only
      rw [traj_scale t n m]
    refine C52_energy_conserved ok eo beta C1 hqs (U := fun s => (st s).2) (H := fun s => (st s).1) ?_ ?_ ?_
    · intro x hx mu
      rw [hs0]
      exact hH x hx mu
    · intro x hx mu
      simp only [hs0]
      have := (hd x hx mu).2
      rw [t1, one_smul] at this
      rw [hs1]
      exact this
    · intro x hx mu
      simp only [hs0]
      have := (hd x hx mu).1
      rw [t2, t3, one_smul, one_smul] at this
      rw [hs1]
      refine (congrArg (fun M => DerivM _ M 0) ?_).mp this
      rw [smul_add, neg_add, sub_eq_add_neg]
      rfl

/-! ### Gauge covariance of the trajectories -/

omit eo in
theorem step_rotated2 {T T' : Theory} (hb : T'.beta = T.beta) (hc : T'.C1 = T.C1) (G : Coords → M3) (hG : AllUnitary g G)
    (hC : ∀ U x, x ∈ box g.L → ∀ mu, T'.quark (transformed g G U) x mu = G x * T.quark U x mu * (G x)ᴴ) (a : Step) (s : State) :
    Agree g (a.run g T' (rotated g G s)) (rotated g G (a.run g T s)) := by
  cases a with
  | quark a =>
    obtain ⟨H, U⟩ := s
    intro x hx
    refine ⟨?_, rfl⟩
    funext mu
    simp only [Step.run, rotated]
    rw [hC U x hx mu, rot_kick]
  | gauge a =>
    have := step_rotated ok (T := ⟨T.beta, T.C1, fun _ _ _ => 0⟩) G hG (fun _ _ _ _ => by simp) (.gauge a) s
    obtain ⟨H, U⟩ := s
    intro x hx
    have h := this x hx
    simp only [Step.run] at h ⊢
    rw [hb, hc]
    exact h
  | links b => exact step_rotated ok (T := ⟨T.beta, T.C1, fun _ _ _ => 0⟩) G hG (fun _ _ _ _ => by simp) (.links b) s

omit eo in
theorem runs_rotated2 {T T' : Theory} (hb : T'.beta = T.beta) (hc : T'.C1 = T.C1) (hT : T'.Local g) (G : Coords → M3) (hG : AllUnitary g G)
    (hC : ∀ U x, x ∈ box g.L → ∀ mu, T'.quark (transformed g G U) x mu = G x * T.quark U x mu * (G x)ᴴ) (l : List Step) (s : State) :
    Agree g (runs g T' l (rotated g G s)) (rotated g G (runs g T l s)) := by
  induction l generalizing s with
  | nil => exact Agree.refl _
  | cons a l ih => exact (runs_agree ok hT l (step_rotated2 ok hb hc G hG hC a s)).trans (ih _)

/-- C52: starting from gauge transformed links, momenta and pseudofermions, the trajectory ends in the gauge transformed links and momenta. -/
theorem C52_trajectory_covariant (J J' : Junk) {solve solve' : Solver} (hs : Exact g solve) (hs' : Exact g solve') (fl fl' : List Flavour) (hf : ∀ f ∈ fl, f.Ok g) (hf' : ∀ f ∈ fl', f.Ok g)
    (E E' : Nat → Nat → Env) (hE : ∀ n k, (E n k).Ok) (hE' : ∀ n k, (E' n k).Ok) (jq jq' : Quad) (name : ActName) (hn : name ≠ .unspec) (beta tau : ℝ) (n m : Nat) (hn0 : 0 < n) (hm : 0 < m)
    (H U K V : EoConf) (G : Coords → M3) (hG : AllUnitary g G)
    (hfl : fl'.map (globFl g) = (fl.map (globFl g)).map (Quark.rotate G))
    (hK : ∀ x ∈ box g.L, ∀ mu, globEo g K x mu = G x * globEo g H x mu * (G x)ᴴ)
    (hV : ∀ x ∈ box g.L, ∀ mu, globEo g V x mu = transformed g G (globEo g U) x mu) :
    ∃ H' U' K' V', macroEvolution g E jq (qfOf g J solve fl) false name beta ⟨tau, n, m⟩ (H, U) = some (H', U') ∧
      macroEvolution g E' jq' (qfOf g J' solve' fl') false name beta ⟨tau, n, m⟩ (K, V) = some (K', V') ∧
      ∀ x ∈ box g.L, ∀ mu, globEo g K' x mu = G x * globEo g H' x mu * (G x)ᴴ ∧ globEo g V' x mu = transformed g G (globEo g U') x mu := by
  obtain ⟨C1, hC⟩ : ∃ C1, c1Of name = some C1 := by cases name; exact absurd rfl hn; all_goals exact ⟨_, rfl⟩
  have hT := theory_local ok eo beta C1 (qok g hf)
  have hT' := theory_local ok eo beta C1 (qok g hf')
  obtain ⟨H', U', h1, h2⟩ := C51_full_trajectory ok eo hT (theory_quark ok eo J hs hf beta C1) E hE jq name hC tau n m hn0 hm H U
  have hrep : RepEo g (K, V) (rotated g G (globEo g H, globEo g U)) := fun x hx => ⟨funext (hK x hx), funext (hV x hx)⟩
  obtain ⟨⟨K', V'⟩, k1, k2⟩ := macro_rep ok eo hT' (theory_quark ok eo J' hs' hf' beta C1) E' hE' jq' name hC tau n m hn0 hm _ hrep
  refine ⟨H', U', K', V', h1, k1, fun x hx mu => ?_⟩
  have h3 := (Agree.trans k2 (runs_rotated2 (T := theoryOf g beta C1 (fl.map (globFl g))) (T' := theoryOf g beta C1 (fl'.map (globFl g))) ok rfl rfl hT' G hG (fun W y hy nu => by
    show quarkForce g (fl'.map (globFl g)) _ y nu = _
    rw [hfl]
    exact C52_force_covariant ok eo G hG (qok g hf) W hy nu) (fullTraj tau n m) _)) x hx
  refine ⟨(congrFun h3.1 mu).trans ?_, (congrFun h3.2 mu).trans ?_⟩
  · simp only [rotated]; rw [(h2 x hx).1]
  · simp only [rotated, transformed]
    rw [(h2 x hx).2]

/-! ### An exact solver exists -/

/-- the ideal solver -/
def exactSolve (ok : g.Ok) (eo : EoOk g) : Solver := fun conf poles pf =>
  some (poles.map fun p => (colView ok eo 0).ofVec fun i => sol g (globEo g conf) p (globH g pf) i.1.1 i.2)

theorem exactSolve_exact : Exact g (exactSolve ok eo) := by
  intro conf poles pf hp
  refine ⟨_, rfl, ?_⟩
  induction poles with
  | nil => exact .nil
  | cons p poles ih =>
    refine .cons ?_ (ih fun q hq => hp q (by simp [hq]))
    have h := sol_solves ok eo (globEo g conf) (hp p (by simp)) (globH g pf)
    have he : ∀ c ∈ boxP g 0, globH g ((colView ok eo 0).ofVec fun i => sol g (globEo g conf) p (globH g pf) i.1.1 i.2) c = sol g (globEo g conf) p (globH g pf) c := by
      intro c hc
      funext a
      exact congrFun ((colView ok eo 0).right fun i => sol g (globEo g conf) p (globH g pf) i.1.1 i.2) (⟨c, hc⟩, a)
    intro c hc
    rw [kern_congr ok eo _ p he hc]
    exact h c hc

/-! ### The solver of the program -/

/-- the solutions returned have relative residue (squared) at most `eps` -/
def Approx (g : Geo) (eps : ℝ) (solve : Solver) : Prop := ∀ conf poles pf chis, solve conf poles pf = some chis →
  List.Forall₂ (fun p chi => (dot (boxP g 0) (globH g pf - kern g (globEo g conf) p (globH g chi)) (globH g pf - kern g (globEo g conf) p (globH g chi))).re ≤
    eps * (dot (boxP g 0) (globH g pf) (globH g pf)).re) poles chis

/-- C52: what `inv_stD2ee_m2_cgm` returns meets the residue asked for. -/
theorem C52_cgm_residue (J : Junk) (async : Bool) {niter_max : Nat} (hn : 0 < niter_max) (residue : ℝ) : Approx g residue (cgmSolve ok eo J async niter_max residue) := by
  intro conf poles pf chis h
  unfold cgmSolve at h
  simp only at h
  set V := colView ok eo 0 with hVd
  cases hc : Cgm.cgmInvert async (fun i : Fin poles.length => poles.get i) (fun shift v => V.toE (stD2ee g J.ji J.jq J.jv conf shift (V.fromE v))) niter_max
      (fun _ => residue) (V.toE pf) with
  | error c => rw [hc] at h; cases h
  | ok r =>
    obtain ⟨s, k⟩ := r
    rw [hc] at h
    cases h
    have hsh : Cgm.Shifted (lin V (stD2ee g J.ji J.jq J.jv conf 0) (stD2ee_lin ok eo J.ji J.jq J.jv conf 0)) (fun shift v => V.toE (stD2ee g J.ji J.jq J.jv conf shift (V.fromE v))) := by
      intro shift v
      ext ⟨⟨c, hc⟩, a⟩
      show globH g (stD2ee g J.ji J.jq J.jv conf shift (V.fromE v)) c a = globH g (stD2ee g J.ji J.jq J.jv conf 0 (V.fromE v)) c a + shift • WithLp.ofLp v (⟨c, hc⟩, a)
      have hv : WithLp.ofLp v (⟨c, hc⟩, a) = globH g (V.fromE v) c a := by
        have := congrArg WithLp.ofLp (toE_fromE V v)
        exact (congrFun this (⟨c, hc⟩, a)).symm
      rw [hv, stD2ee_eq ok eo _ _ _ _ _ _ hc, stD2ee_eq ok eo _ _ _ _ _ _ hc]
      simp only [Pi.sub_apply, Pi.smul_apply, smul_eq_mul, Complex.real_smul, Complex.ofReal_zero]
      ring
    have hr := (Cgm.C29_returns_converged async _ _ hsh (V.toE pf) _ _ niter_max hn s k hc).1
    rw [List.forall₂_iff_get]
    refine ⟨by simp, fun i h1 h2 => ?_⟩
    have hi := hr ⟨i, h1⟩
    rw [← hsh] at hi
    have e : V.toE pf - V.toE (stD2ee g J.ji J.jq J.jv conf (poles.get ⟨i, h1⟩) (V.fromE (s ⟨i, h1⟩))) =
        V.toE (pf - stD2ee g J.ji J.jq J.jv conf (poles.get ⟨i, h1⟩) (V.fromE (s ⟨i, h1⟩))) := by
      ext ⟨⟨c, hc⟩, a⟩
      rfl
    beta_reduce at hi
    rw [e, toE_norm, toE_norm, hVd, col_dot, col_dot] at hi
    have hk : ∀ c ∈ boxP g 0, globH g (pf - stD2ee g J.ji J.jq J.jv conf (poles.get ⟨i, h1⟩) ((colView ok eo 0).fromE (s ⟨i, h1⟩))) c =
        (globH g pf - kern g (globEo g conf) (poles.get ⟨i, h1⟩) (globH g ((colView ok eo 0).fromE (s ⟨i, h1⟩)))) c := by
      intro c hc
      show globH g pf c - globH g (stD2ee g J.ji J.jq J.jv conf (poles.get ⟨i, h1⟩) ((colView ok eo 0).fromE (s ⟨i, h1⟩))) c = globH g pf c - kern g _ _ _ c
      rw [stD2ee_eq ok eo _ _ _ _ _ _ hc]
      unfold kern
      ext a
      simp
    rw [dot_congr hk hk] at hi
    have hg : (List.ofFn fun i => (colView ok eo 0).fromE (s i)).get ⟨i, h2⟩ = (colView ok eo 0).fromE (s ⟨i, h1⟩) := by simp
    rw [hg]
    exact le_of_lt hi

/-- distance from the exact solution -/
theorem approx_dist (V : Coords → Quad) {p : ℝ} (hp : 0 < p) (phi chi : Coords → Col) :
    ‖(evenView g).toE chi - (evenView g).toE (sol g V p phi)‖ ≤ ‖(evenView g).toE phi - (evenView g).toE (kern g V p chi)‖ / p := by
  rw [le_div_iff₀ hp]
  set d := (evenView g).toE chi - (evenView g).toE (sol g V p phi) with hd
  have h1 := kernE_coer ok eo V p d
  have h2 : kernE g V p d = -((evenView g).toE phi - (evenView g).toE (kern g V p chi)) := by
    rw [hd, map_sub, kernE_toE ok eo, (solves_toE ok eo).1 (sol_solves ok eo V hp phi)]
    abel
  rw [h2] at h1
  have h3 := real_inner_le_norm d (-((evenView g).toE phi - (evenView g).toE (kern g V p chi)))
  rw [norm_neg] at h3
  by_cases h0 : ‖d‖ = 0
  · rw [h0, zero_mul]; exact norm_nonneg _
  · have h4 : 0 < ‖d‖ := lt_of_le_of_ne (norm_nonneg _) (Ne.symm h0)
    refine le_of_mul_le_mul_left ?_ h4
    calc ‖d‖ * (‖d‖ * p) = p * ‖d‖ ^ 2 := by ring
      _ ≤ _ := h1.trans h3

theorem approx_fold (terms : List (ℝ × ℝ)) (hp : ∀ t ∈ terms, 0 < t.1) (pf : EvnFld) (conf1 : EoConf) {V : Coords → Quad} (hV : ∀ x ∈ box g.L, globEo g conf1 x = V x) {eps : ℝ} (he : 0 ≤ eps) (chis : List EvnFld)
    (h : List.Forall₂ (fun p chi => (dot (boxP g 0) (globH g pf - kern g (globEo g conf1) p (globH g chi)) (globH g pf - kern g (globEo g conf1) p (globH g chi))).re ≤
      eps * (dot (boxP g 0) (globH g pf) (globH g pf)).re) (terms.map (·.1)) chis) (c0 : EvnFld) :
    |(dot (boxP g 0) (globH g ((terms.zip chis).foldl (fun chi_e wt => fun rk e c => chi_e rk e c + wt.1.2 * wt.2 rk e c) c0)) (globH g pf)).re -
      ((dot (boxP g 0) (globH g c0) (globH g pf)).re + (terms.map fun t => t.2 * (dot (boxP g 0) (globH g pf) (sol g V t.1 (globH g pf))).re).sum)| ≤
      Real.sqrt eps * (dot (boxP g 0) (globH g pf) (globH g pf)).re * (terms.map fun t => |t.2| / t.1).sum := by
  induction terms generalizing chis c0 with
  | nil => simp
  | cons t terms ih =>
    cases h with
    | cons h0 hs =>
      rename_i chi chis
      simp only [List.map_cons, List.zip_cons_cons, List.foldl_cons, List.sum_cons]
      have hrec := ih (fun t ht => hp t (by simp [ht])) _ hs (fun rk e c => c0 rk e c + (t.2 : ℂ) * chi rk e c)
      have e1 : globH g (fun rk e c => c0 rk e c + (t.2 : ℂ) * chi rk e c) = globH g c0 + t.2 • globH g chi := by
        funext c a
        show _ = globH g c0 c a + t.2 • globH g chi c a
        rw [Complex.real_smul]
        rfl
      rw [e1, add_dot, smul_dot, Complex.add_re, Complex.re_ofReal_mul, ← dot_conj (boxP g 0) (globH g pf) (globH g chi), Complex.conj_re] at hrec
      have hpos := hp t (by simp)
      -- the single term
      have hk : (evenView g).toE (kern g (globEo g conf1) t.1 (globH g chi)) = (evenView g).toE (kern g V t.1 (globH g chi)) := by
        rw [toE_eq ok eo]
        intro c hc
        unfold kern
        rw [hop2_links ok hV _ (mem_boxP.1 hc).1]
      have hd := approx_dist ok eo V hpos (globH g pf) (globH g chi)
      have hres : ‖(evenView g).toE (globH g pf) - (evenView g).toE (kern g V t.1 (globH g chi))‖ ≤ Real.sqrt eps * ‖(evenView g).toE (globH g pf)‖ := by
        refine abs_le_of_sq_le_sq' ?_ (by positivity) |>.2
        rw [mul_pow, Real.sq_sqrt he, toE_norm, even_dot, ← hk]
        have e2 : (evenView g).toE (globH g pf) - (evenView g).toE (kern g (globEo g conf1) t.1 (globH g chi)) = (evenView g).toE (globH g pf - kern g (globEo g conf1) t.1 (globH g chi)) := by
          ext i; rfl
        rw [e2, toE_norm, even_dot]
        exact h0
      have hone : |(dot (boxP g 0) (globH g pf) (globH g chi)).re - (dot (boxP g 0) (globH g pf) (sol g V t.1 (globH g pf))).re| ≤ Real.sqrt eps * (dot (boxP g 0) (globH g pf) (globH g pf)).re / t.1 := by
        rw [← even_dot, ← even_dot, ← even_dot, ← toE_inner, ← toE_inner, ← toE_norm, ← inner_sub_right]
        refine (abs_real_inner_le_norm _ _).trans ?_
        calc _ ≤ ‖(evenView g).toE (globH g pf)‖ * (Real.sqrt eps * ‖(evenView g).toE (globH g pf)‖ / t.1) :=
              mul_le_mul_of_nonneg_left (hd.trans (by gcongr)) (norm_nonneg _)
          _ = _ := by ring
      have hw : |t.2 * ((dot (boxP g 0) (globH g pf) (globH g chi)).re - (dot (boxP g 0) (globH g pf) (sol g V t.1 (globH g pf))).re)| ≤
          Real.sqrt eps * (dot (boxP g 0) (globH g pf) (globH g pf)).re * (|t.2| / t.1) := by
        rw [abs_mul]
        calc _ ≤ |t.2| * (Real.sqrt eps * (dot (boxP g 0) (globH g pf) (globH g pf)).re / t.1) := mul_le_mul_of_nonneg_left hone (abs_nonneg _)
          _ = _ := by ring
      rw [mul_add]
      refine le_trans ?_ (add_le_add hw hrec)
      refine le_trans (le_of_eq ?_) (abs_add_le _ _)
      congr 1
      ring

/-- C52: accuracy of the action.  If the solver meets a relative residue (squared) `eps` and the routine returns, the action differs from the exact
one by at most `sqrt(eps) |phi|^2 sum_i |w_i|/p_i`. -/
theorem C52_action_accuracy (J : Junk) {sched : Nat → Nat → List Nat} (hl : ∀ rk, Reduce.Legal (sched rk)) {solve : Solver} {eps : ℝ} (he : 0 ≤ eps) (hs : Approx g eps solve) (conf : EoConf) (pf : EvnFld)
    (u1b : Nat → Nat → Nat → Quad1) {r : Rat} (hr : r.Ok) {S : ℝ} {conf' : EoConf} (h : compute_root_st_action g J sched solve conf u1b r pf = some (S, conf')) :
    |S - actSpec g (dress (globEo g u1b) (globEo g conf)) r (globH g pf)| ≤ Real.sqrt eps * (dot (boxP g 0) (globH g pf) (globH g pf)).re * (r.terms.map fun t => |t.2| / t.1).sum := by
  unfold compute_root_st_action summ_src_and_all_inv at h
  simp only at h
  cases hc : solve (add_backfield g J conf u1b) (r.terms.map (·.1)) pf with
  | none => rw [hc] at h; cases h
  | some chis =>
    rw [hc] at h
    simp only [Option.map_some, Option.some.injEq, Prod.mk.injEq] at h
    rw [← h.1, scalar_glob ok eo hl]
    have := approx_fold ok eo r.terms hr pf _ (V := dress (globEo g u1b) (globEo g conf)) (add_back_glob ok eo J conf u1b) he chis (hs _ _ _ _ hc) (fun rk e c => pf rk e c * (r.cons : ℂ))
    have e1 : globH g (fun rk e c => pf rk e c * (r.cons : ℂ)) = r.cons • globH g pf := by
      funext c a
      show _ = r.cons • globH g pf c a
      rw [Complex.real_smul, mul_comm]
      rfl
    rw [e1, smul_dot, Complex.re_ofReal_mul] at this
    exact this

omit ok eo in
/-- C52: a flavour of another discretization, with at least a pseudofermion, makes action and force crash. -/
theorem C52_other_discretizations (J : Junk) (sched : Nat → Nat → List Nat) (solve : Solver) (conf : EoConf) (f : Flavour) (fl : List Flavour) (hf : f.rootStag = false) (hp : f.pf ≠ []) :
    compute_quark_action g J sched solve conf (f :: fl) = none ∧ compute_quark_force g J solve conf (f :: fl) = none := by
  obtain ⟨p, ps, hpp⟩ := List.exists_cons_of_ne_nil hp
  unfold compute_quark_action compute_quark_force compute_quark_force_no_stout_remapping
  simp only [List.foldlM_cons, hpp, hf]
  exact ⟨rfl, rfl⟩

/-- C52: when the residue is tracked asynchronously, the solver never returns, so action and force crash as soon as there is a pseudofermion. -/
theorem C52_violated_async (J : Junk) (sched : Nat → Nat → List Nat) (niter_max : Nat) (residue : ℝ) (conf : EoConf) (f : Flavour) (fl : List Flavour) (hf : f.rootStag = true) (hp : f.pf ≠ []) :
    compute_quark_action g J sched (cgmSolve ok eo J true niter_max residue) conf (f :: fl) = none ∧ compute_quark_force g J (cgmSolve ok eo J true niter_max residue) conf (f :: fl) = none := by
  obtain ⟨p, ps, hpp⟩ := List.exists_cons_of_ne_nil hp
  have hn : ∀ c l q, cgmSolve ok eo J true niter_max residue c l q = none := by
    intro c l q
    unfold cgmSolve
    simp only
    cases hc : Cgm.cgmInvert true (fun i : Fin l.length => l.get i) (fun shift v => (colView ok eo 0).toE (stD2ee g J.ji J.jq J.jv c shift ((colView ok eo 0).fromE v))) niter_max
      (fun _ => residue) ((colView ok eo 0).toE q) with
    | error _ => rfl
    | ok v => exact absurd hc (Cgm.C29_violated_async _ _ _ _ _ v)
  unfold compute_quark_action compute_quark_force compute_quark_force_no_stout_remapping
  simp only [List.foldlM_cons, hpp, hf, if_true, compute_root_st_action, summ_src_and_all_inv, summ_the_rootst_eoimpr_quark_force, hn]
  exact ⟨rfl, rfl⟩

end

/-! ### Concrete cases -/

/-- a flavour with a background phase and two pseudofermions -/
def qfFl : Flavour := ⟨true, fun _ _ _ _ => I, ⟨1 / 2, [(1 / 100, 3 / 10), (1, -2 / 10)]⟩, [fun rk e c => ((rk + 3 * e + c.val : ℕ) : ℂ), fun _ e _ => (e : ℂ) * I]⟩

theorem qfFl_ok : ∀ f ∈ [qfFl, { qfFl with u1b := fun _ _ _ _ => 1 }], f.Ok fcGeo := by
  intro f hf
  have hp : qfFl.appr.Ok := by
    intro t ht
    simp only [qfFl, List.mem_cons, List.not_mem_nil, or_false] at ht
    rcases ht with rfl | rfl <;> norm_num
  simp only [List.mem_cons, List.not_mem_nil, or_false] at hf
  rcases hf with rfl | rfl
  · exact ⟨rfl, fun x _ mu => by simp [globEo, qfFl], hp⟩
  · exact ⟨rfl, fun x _ mu => by simp [globEo], hp⟩

/-- 8 outer and 3 inner steps, two flavours: the energy is conserved at first order -/
example (J : Junk) (U : EoConf) : ∃ K S Q : ℝ → ℝ, (∀ tau, ∃ H' U' conf', macroEvolution fcGeo (fun _ _ => fcEnv) 0
      (qfOf fcGeo J (exactSolve (g := fcGeo) (by decide) (by decide)) [qfFl, { qfFl with u1b := fun _ _ _ _ => 1 }]) false .tlsym (7 / 2) ⟨tau, (8 : Nat), (3 : Nat)⟩
      (fun rk p e => fcMom rk e, U) = some (H', U') ∧
      momenta_action fcGeo (fun _ _ n => List.range n) H' = K tau ∧ gluonic_action_eo fcGeo 0 0 (0, 0) (fun _ n => List.range n) U' .tlsym (7 / 2) = some (S tau) ∧
      compute_quark_action fcGeo J (fun _ n => List.range n) (exactSolve (g := fcGeo) (by decide) (by decide)) U' [qfFl, { qfFl with u1b := fun _ _ _ _ => 1 }] = some (Q tau, conf')) ∧
      HasDerivAt (fun tau => K tau + S tau + Q tau) 0 0 :=
  C52_trajectory_energy (g := fcGeo) (by decide) (by decide) J (exactSolve_exact _ _) _ qfFl_ok (fun _ _ => fcEnv) (fun _ _ => fcEnv_ok) 0 0 0 (0, 0)
    (sched := fun _ n => List.range n) (fun _ n => List.Perm.refl _) (sched' := fun _ _ n => List.range n) (fun _ _ n => List.Perm.refl _) .tlsym (by simp) (7 / 2) 8 3 (by norm_num) (by norm_num)
    (fun rk p e => fcMom rk e) U (fun x hx mu => by unfold globEo; exact fcMom_ok _ _ _)

/-- a global rotation: pseudofermions of the rotated flavour -/
example (G : M3) (hG : G * Gᴴ = 1) : AllUnitary fcGeo (fun _ => G) ∧
    [{ qfFl with pf := qfFl.pf.map fun phi rk e => G.mulVec (phi rk e) }].map (globFl fcGeo) = ([qfFl].map (globFl fcGeo)).map (Quark.rotate fun _ => G) :=
  ⟨fun x _ => by first | exact hG | exact mul_eq_one_comm.1 hG, rfl⟩

/-- the solver of the program -/
example (J : Junk) (U : EoConf) (residue : ℝ) : Approx fcGeo residue (cgmSolve (g := fcGeo) (by decide) (by decide) J false 100 residue) :=
  C52_cgm_residue (g := fcGeo) (by decide) (by decide) J false (by norm_num) residue

end

end Nissa.QForce
