import Verif.Hmc.PropsOmelyan
import Mathlib.Data.List.Palindrome

/-! # The Omelyan integrator: times, reversibility, symmetries -/

set_option linter.all false

namespace Nissa.Omel
open Nissa.Lx Nissa.Sten Nissa.Su3f Nissa.Gauge Nissa.GForce Nissa.EoP Nissa.Paths Nissa.LSm Matrix Complex

noncomputable section

/-! ### Times -/

/-- time for which the links are moved -/
def Step.linkTime : Step → ℝ
  | .links b => b
  | _ => 0

/-- time for which the gauge force acts -/
def Step.gaugeTime : Step → ℝ
  | .gauge a => a
  | _ => 0

/-- time for which the quark force acts -/
def Step.quarkTime : Step → ℝ
  | .quark a => a
  | _ => 0

theorem sum_times (f : Step → ℝ) (n : Nat) (l : List Step) : ((times n l).map f).sum = n * (l.map f).sum := by
  induction n with
  | zero => simp [times]
  | succ n ih => rw [times_succ, List.map_append, List.sum_append, ih]; push_cast; ring

theorem gauge_times (t : ℝ) {m : Nat} (hm : 0 < m) : ((gaugeTraj t m).map Step.linkTime).sum = t ∧ ((gaugeTraj t m).map Step.gaugeTime).sum = t ∧
    ((gaugeTraj t m).map Step.quarkTime).sum = 0 := by
  have hm' : (m : ℝ) ≠ 0 := by positivity
  unfold gaugeTraj
  rw [sum_times, sum_times, sum_times]
  refine ⟨?_, ?_, ?_⟩ <;> simp [om, Step.linkTime, Step.gaugeTime, Step.quarkTime] <;> field_simp <;> ring

/-- C51: along a trajectory the links, the gauge force and the quark force all act for a total time equal to the length asked for. -/
theorem C51_times (tau : ℝ) (n m : Nat) (hn : 0 < n) (hm : 0 < m) : ((fullTraj tau n m).map Step.linkTime).sum = tau ∧
    ((fullTraj tau n m).map Step.gaugeTime).sum = tau ∧ ((fullTraj tau n m).map Step.quarkTime).sum = tau := by
  have hn' : (n : ℝ) ≠ 0 := by positivity
  obtain ⟨h1, h2, h3⟩ := gauge_times (tau / n / 2) hm
  unfold fullTraj
  rw [sum_times, sum_times, sum_times]
  refine ⟨?_, ?_, ?_⟩ <;> simp [om, h1, h2, h3, Step.linkTime, Step.gaugeTime, Step.quarkTime] <;> field_simp <;> ring

/-! ### The sequence of steps is a palindrome -/

theorem times_reverse (n : Nat) {l : List Step} (h : l.reverse = l) : (times n l).reverse = times n l := by
  unfold times
  rw [List.reverse_flatten, List.map_replicate, h, List.reverse_replicate]

theorem om_reverse (K : ℝ → Step) {D : ℝ → List Step} (h : ∀ b, (D b).reverse = D b) (e : ℝ) : (om K D e).reverse = om K D e := by
  simp [om, h, List.reverse_append]

theorem gaugeTraj_reverse (t : ℝ) (m : Nat) : (gaugeTraj t m).reverse = gaugeTraj t m := times_reverse _ (om_reverse _ (fun _ => rfl) _)

theorem fullTraj_reverse (t : ℝ) (n m : Nat) : (fullTraj t n m).reverse = fullTraj t n m := times_reverse _ (om_reverse _ (fun b => gaugeTraj_reverse b m) _)

/-! ### Momenta in the algebra, exponents away from the truncated series -/

/-- momenta hermitian and traceless -/
def Alg (g : Geo) (s : State) : Prop := ∀ x ∈ box g.L, ∀ mu, (s.1 x mu)ᴴ = s.1 x mu ∧ (s.1 x mu).trace = 0

/-- the quark force is anti-hermitian and traceless -/
def Theory.Algebra (g : Geo) (T : Theory) : Prop := ∀ U x, x ∈ box g.L → ∀ mu, (T.quark U x mu)ᴴ = -T.quark U x mu ∧ (T.quark U x mu).trace = 0

/-- in no motion of the links the exponential is computed with truncated series -/
def Fair (g : Geo) (T : Theory) (l : List Step) (s : State) : Prop := ∀ l1 b l2, l = l1 ++ .links b :: l2 → ∀ x ∈ box g.L, ∀ mu, RegH (b • (runs g T l1 s).1 x mu)

/-- the momenta with the opposite sign -/
def flip (s : State) : State := (fun x mu => -s.1 x mu, s.2)

theorem Fair.tail {g : Geo} {T : Theory} {a : Step} {l : List Step} {s : State} (h : Fair g T (a :: l) s) : Fair g T l (a.run g T s) := by
  intro l1 b l2 hl
  exact h (a :: l1) b l2 (by rw [hl]; rfl)

theorem Fair.head {g : Geo} {T : Theory} {b : ℝ} {l : List Step} {s : State} (h : Fair g T (.links b :: l) s) : ∀ x ∈ box g.L, ∀ mu, RegH (b • s.1 x mu) :=
  h [] b l rfl

section
variable {g : Geo} (ok : g.Ok) {T : Theory} (hA : T.Algebra g)
include ok hA

theorem alg_kick {H F : M3} (a : ℝ) (hH : Hᴴ = H ∧ H.trace = 0) (hF : Fᴴ = -F ∧ F.trace = 0) : (H - a • (I • F))ᴴ = H - a • (I • F) ∧ (H - a • (I • F)).trace = 0 := by
  constructor
  · rw [conjTranspose_sub, hH.1, conjTranspose_smul, conjTranspose_smul, hF.1]
    simp
  · rw [Matrix.trace_sub, hH.2, Matrix.trace_smul, Matrix.trace_smul, hF.2]
    simp

theorem alg_step (a : Step) {s : State} (h : Alg g s) : Alg g (a.run g T s) := by
  obtain ⟨H, U⟩ := s
  intro x hx mu
  cases a with
  | gauge a => exact alg_kick ok hA a (h x hx mu) (forceSpec_alg _ _ _ _ _)
  | quark a => exact alg_kick ok hA a (h x hx mu) (hA U x hx mu)
  | links b => exact h x hx mu

theorem alg_runs (l : List Step) {s : State} (h : Alg g s) : Alg g (runs g T l s) := by
  induction l generalizing s with
  | nil => exact h
  | cons a l ih => exact ih (alg_step ok hA a h)

/-- one step undone -/
theorem step_back (a : Step) {s : State} (h : Alg g s) (hr : ∀ b, a = .links b → ∀ x ∈ box g.L, ∀ mu, RegH (b • s.1 x mu)) :
    Agree g (a.run g T (flip (a.run g T s))) (flip s) := by
  obtain ⟨H, U⟩ := s
  intro x hx
  cases a with
  | gauge a =>
    refine ⟨?_, rfl⟩
    funext mu
    simp only [Step.run, flip]
    abel
  | quark a =>
    refine ⟨?_, rfl⟩
    funext mu
    simp only [Step.run, flip]
    abel
  | links b =>
    refine ⟨rfl, ?_⟩
    funext mu
    simp only [Step.run, flip]
    have h1 : (b • H x mu)ᴴ = b • H x mu := by rw [conjTranspose_smul, (h x hx mu).1]; simp
    have h2 : (b • H x mu).trace = 0 := by rw [Matrix.trace_smul, (h x hx mu).2, smul_zero]
    rw [smul_neg, ← Matrix.mul_assoc, hexp_inv h1 h2 (hr b rfl x hx mu), Matrix.one_mul]

/-- the same steps in the opposite order, from the final links and the opposite of the final momenta, lead back -/
theorem runs_back (hT : T.Local g) (l : List Step) {s : State} (h : Alg g s) (hr : Fair g T l s) :
    Agree g (runs g T l.reverse (flip (runs g T l s))) (flip s) := by
  induction l generalizing s with
  | nil => exact Agree.refl _
  | cons a l ih =>
    rw [List.reverse_cons, runs_append, runs_cons, runs_cons, runs_nil]
    have h1 := ih (alg_step ok hA a h) hr.tail
    refine (step_agree ok hT a h1).trans (step_back ok hA a h ?_)
    rintro b rfl
    exact hr.head

end

section
variable {g : Geo} (ok : g.Ok)
include ok

/-- C51: molecular dynamics is reversible: from the final links and the opposite of the final momenta the integrator, called again with the
same parameters, arrives to the initial links and to the opposite of the initial momenta.  This is before the final projection of the
links, and when no exponential is computed with a truncated series in the first run. -/
theorem C51_reversible (eo : EoOk g) {T : Theory} (hT : T.Local g) (hA : T.Algebra g) {qf : (Nat → Nat → Nat → Quad) → Nat → Nat → Nat → Quad}
    (hq : QuarkIs g qf T) (E E' : Nat → Nat → Env) (hE : ∀ n k, (E n k).Ok) (hE' : ∀ n k, (E' n k).Ok) (jq jq' : Quad) (name : ActName)
    (hn : c1Of name = some T.C1) (tau : ℝ) (n m : Nat) (hn0 : 0 < n) (hm : 0 < m) (H U H' U' H'' U'' : Nat → Nat → Nat → Quad)
    (hH : ∀ x ∈ box g.L, ∀ mu, (globEo g H x mu)ᴴ = globEo g H x mu ∧ (globEo g H x mu).trace = 0)
    (hr : Fair g T (fullTraj tau n m) (globEo g H, globEo g U))
    (h : macroEvolution g E jq qf false name T.beta ⟨tau, n, m⟩ (H, U) = some (H', U'))
    (h' : macroEvolution g E' jq' qf false name T.beta ⟨tau, n, m⟩ (fun rk p e mu => -H' rk p e mu, U') = some (H'', U'')) :
    ∀ x ∈ box g.L, ∀ mu, globEo g H'' x mu = -globEo g H x mu ∧ globEo g U'' x mu = globEo g U x mu := by
  intro x hx mu
  obtain ⟨H1, U1, h1, h2⟩ := C51_full_trajectory ok eo hT hq E hE jq name hn tau n m hn0 hm H U
  rw [h] at h1; cases h1
  have hrep : RepEo g (fun rk p e mu => -H' rk p e mu, U') (flip (runs g T (fullTraj tau n m) (globEo g H, globEo g U))) := by
    intro x hx
    refine ⟨?_, (h2 x hx).2⟩
    funext mu
    simp only [flip]
    rw [← (h2 x hx).1]
    rfl
  obtain ⟨⟨H2, U2⟩, k1, k2⟩ := macro_rep ok eo hT hq E' hE' jq' name hn tau n m hn0 hm _ hrep
  rw [h'] at k1; cases k1
  have h3 := runs_back ok hA hT (fullTraj tau n m) (s := (globEo g H, globEo g U)) hH hr
  rw [fullTraj_reverse] at h3
  have h4 := Agree.trans k2 h3 x hx
  exact ⟨congrFun h4.1 mu, congrFun h4.2 mu⟩

/-- C51: the same for the gauge evolver alone -/
theorem C51_gauge_reversible (E E' : Nat → Env) (hE : ∀ k, (E k).Ok) (hE' : ∀ k, (E' k).Ok) (name : ActName) (beta C1 : ℝ)
    (hn : c1Of name = some C1) (tau : ℝ) (n m : Nat) (hm : 0 < m) (H U H' U' H'' U'' : Nat → Nat → Quad)
    (hH : ∀ x ∈ box g.L, ∀ mu, (glob g H x mu)ᴴ = glob g H x mu ∧ (glob g H x mu).trace = 0)
    (hr : Fair g ⟨beta, C1, fun _ _ _ => 0⟩ (gaugeTraj (tau / n / 2) m) (glob g H, glob g U))
    (h : Omelyan_pure_gauge_evolver_lx_conf g E name beta ⟨tau, n, m⟩ H U = some (H', U'))
    (h' : Omelyan_pure_gauge_evolver_lx_conf g E' name beta ⟨tau, n, m⟩ (fun rk i mu => -H' rk i mu) U' = some (H'', U'')) :
    ∀ rk, rk < g.nranks → ∀ i, i < g.locVol → ∀ mu, H'' rk i mu = -H rk i mu ∧ U'' rk i mu = U rk i mu := by
  have hT : Theory.Local g ⟨beta, C1, fun _ _ _ => 0⟩ := fun _ _ _ _ _ => rfl
  have hA : Theory.Algebra g ⟨beta, C1, fun _ _ _ => 0⟩ := fun _ _ _ _ => by simp
  obtain ⟨⟨H1, U1⟩, h1, h2⟩ := gauge_evolver_rep (T := ⟨beta, C1, fun _ _ _ => 0⟩) ok hT E hE name hn tau n m hm (H, U) (Agree.refl _)
  rw [h] at h1; cases h1
  have hrep : Rep g (fun rk i mu => -H' rk i mu, U') (flip (runs g ⟨beta, C1, fun _ _ _ => 0⟩ (gaugeTraj (tau / n / 2) m) (glob g H, glob g U))) := by
    intro x hx
    refine ⟨?_, (h2 x hx).2⟩
    funext mu
    simp only [flip]
    rw [← (h2 x hx).1]
    rfl
  obtain ⟨⟨H2, U2⟩, k1, k2⟩ := gauge_evolver_rep (T := ⟨beta, C1, fun _ _ _ => 0⟩) ok hT E' hE' name hn tau n m hm _ hrep
  rw [h'] at k1; cases k1
  have h3 := runs_back ok hA hT (gaugeTraj (tau / n / 2) m) (s := (glob g H, glob g U)) hH hr
  rw [gaugeTraj_reverse] at h3
  intro rk hrk i hi mu
  obtain ⟨c, hc⟩ := glbCoord_some ok (coordOfLx rk g.R) (i := i) (by unfold allVol; omega)
  have h4 := Agree.trans k2 h3 c (coord_box ok hrk hi hc)
  have a1 := congrFun h4.1 mu
  have a2 := congrFun h4.2 mu
  simp only [flip] at a1 a2
  rw [glob_at ok H'' hrk hi hc, glob_at ok H hrk hi hc] at a1
  rw [glob_at ok U'' hrk hi hc, glob_at ok U hrk hi hc] at a2
  exact ⟨a1, a2⟩

/-! ### Special unitary links -/

theorem su3_runs {T : Theory} (hA : T.Algebra g) (l : List Step) {s : State} (h : Alg g s) (hr : Fair g T l s)
    (hU : ∀ x ∈ box g.L, ∀ mu, IsSU3 (s.2 x mu)) : ∀ x ∈ box g.L, ∀ mu, IsSU3 ((runs g T l s).2 x mu) := by
  induction l generalizing s with
  | nil => exact hU
  | cons a l ih =>
    refine ih (alg_step ok hA a h) hr.tail ?_
    intro x hx mu
    obtain ⟨H, U⟩ := s
    cases a with
    | gauge a => exact hU x hx mu
    | quark a => exact hU x hx mu
    | links b =>
      have h1 : (b • H x mu)ᴴ = b • H x mu := by rw [conjTranspose_smul, (h x hx mu).1]; simp
      have h2 : (b • H x mu).trace = 0 := by rw [Matrix.trace_smul, (h x hx mu).2, smul_zero]
      exact su3_mul (hexp_su3 h1 h2 (hr.head x hx mu)) (hU x hx mu)

/-- C51: along the trajectory the momenta remain hermitian and traceless and the links special unitary, before any projection. -/
theorem C51_stays_in_group (eo : EoOk g) {T : Theory} (hT : T.Local g) (hA : T.Algebra g) {qf : (Nat → Nat → Nat → Quad) → Nat → Nat → Nat → Quad}
    (hq : QuarkIs g qf T) (E : Nat → Nat → Env) (hE : ∀ n k, (E n k).Ok) (jq : Quad) (name : ActName)
    (hn : c1Of name = some T.C1) (tau : ℝ) (n m : Nat) (hn0 : 0 < n) (hm : 0 < m) (H U H' U' : Nat → Nat → Nat → Quad)
    (hH : ∀ x ∈ box g.L, ∀ mu, (globEo g H x mu)ᴴ = globEo g H x mu ∧ (globEo g H x mu).trace = 0)
    (h : macroEvolution g E jq qf false name T.beta ⟨tau, n, m⟩ (H, U) = some (H', U')) :
    (∀ x ∈ box g.L, ∀ mu, (globEo g H' x mu)ᴴ = globEo g H' x mu ∧ (globEo g H' x mu).trace = 0) ∧
    (Fair g T (fullTraj tau n m) (globEo g H, globEo g U) → (∀ x ∈ box g.L, ∀ mu, IsSU3 (globEo g U x mu)) →
      ∀ x ∈ box g.L, ∀ mu, IsSU3 (globEo g U' x mu)) := by
  obtain ⟨H1, U1, h1, h2⟩ := C51_full_trajectory ok eo hT hq E hE jq name hn tau n m hn0 hm H U
  rw [h] at h1; cases h1
  constructor
  · intro x hx mu
    rw [(h2 x hx).1]
    exact alg_runs ok hA _ (s := (globEo g H, globEo g U)) hH x hx mu
  · intro hr hU x hx mu
    rw [(h2 x hx).2]
    exact su3_runs ok hA _ (s := (globEo g H, globEo g U)) hH hr hU x hx mu

/-! ### Gauge covariance -/

/-- momenta rotate at their site -/
def rotated (g : Geo) (G : Coords → M3) (s : State) : State := (fun x mu => G x * s.1 x mu * (G x)ᴴ, transformed g G s.2)

/-- the quark force rotates with the links -/
def Theory.Covariant (g : Geo) (T : Theory) (G : Coords → M3) : Prop := ∀ U x, x ∈ box g.L → ∀ mu, T.quark (transformed g G U) x mu = G x * T.quark U x mu * (G x)ᴴ

omit ok in
theorem rot_kick (G H F : M3) (a : ℝ) : G * H * Gᴴ - a • (I • (G * F * Gᴴ)) = G * (H - a • (I • F)) * Gᴴ := by
  simp only [Matrix.mul_sub, Matrix.sub_mul, Matrix.mul_smul, Matrix.smul_mul]

theorem step_rotated {T : Theory} (G : Coords → M3) (hG : AllUnitary g G) (hC : T.Covariant g G) (a : Step) (s : State) :
    Agree g (a.run g T (rotated g G s)) (rotated g G (a.run g T s)) := by
  obtain ⟨H, U⟩ := s
  intro x hx
  cases a with
  | gauge a =>
    refine ⟨?_, rfl⟩
    funext mu
    simp only [Step.run, rotated]
    rw [forceSpec_transformed ok G hG U _ _ hx mu, rot_kick]
  | quark a =>
    refine ⟨?_, rfl⟩
    funext mu
    simp only [Step.run, rotated]
    rw [hC U x hx mu, rot_kick]
  | links b =>
    refine ⟨rfl, ?_⟩
    funext mu
    simp only [Step.run, rotated, transformed]
    have e : b • (G x * H x mu * (G x)ᴴ) = G x * (b • H x mu) * (G x)ᴴ := by simp only [Matrix.mul_smul, Matrix.smul_mul]
    rw [e, hexp_conj _ _ (hG x hx)]
    calc G x * hermitian_exact_i_exponentiate (b • H x mu) * (G x)ᴴ * (G x * U x mu * (G (tshift g x mu 1))ᴴ)
        = G x * hermitian_exact_i_exponentiate (b • H x mu) * ((G x)ᴴ * G x) * (U x mu * (G (tshift g x mu 1))ᴴ) := by simp only [Matrix.mul_assoc]
      _ = _ := by rw [hG x hx, Matrix.mul_one]; simp only [Matrix.mul_assoc]

theorem runs_rotated {T : Theory} (hT : T.Local g) (G : Coords → M3) (hG : AllUnitary g G) (hC : T.Covariant g G) (l : List Step) (s : State) :
    Agree g (runs g T l (rotated g G s)) (rotated g G (runs g T l s)) := by
  induction l generalizing s with
  | nil => exact Agree.refl _
  | cons a l ih => exact (runs_agree ok hT l (step_rotated ok G hG hC a s)).trans (ih _)

/-- C51: starting from gauge transformed links and momenta the trajectory ends in the gauge transformed links and momenta; no condition on
the exponents is needed. -/
theorem C51_covariant (eo : EoOk g) {T : Theory} (hT : T.Local g) {qf : (Nat → Nat → Nat → Quad) → Nat → Nat → Nat → Quad}
    (hq : QuarkIs g qf T) (E E' : Nat → Nat → Env) (hE : ∀ n k, (E n k).Ok) (hE' : ∀ n k, (E' n k).Ok) (jq jq' : Quad) (name : ActName)
    (hn : c1Of name = some T.C1) (tau : ℝ) (n m : Nat) (hn0 : 0 < n) (hm : 0 < m) (H U H' U' K V K' V' : Nat → Nat → Nat → Quad)
    (G : Coords → M3) (hG : AllUnitary g G) (hC : T.Covariant g G)
    (hK : ∀ x ∈ box g.L, ∀ mu, globEo g K x mu = G x * globEo g H x mu * (G x)ᴴ)
    (hV : ∀ x ∈ box g.L, ∀ mu, globEo g V x mu = transformed g G (globEo g U) x mu)
    (h : macroEvolution g E jq qf false name T.beta ⟨tau, n, m⟩ (H, U) = some (H', U'))
    (h' : macroEvolution g E' jq' qf false name T.beta ⟨tau, n, m⟩ (K, V) = some (K', V')) :
    ∀ x ∈ box g.L, ∀ mu, globEo g K' x mu = G x * globEo g H' x mu * (G x)ᴴ ∧ globEo g V' x mu = transformed g G (globEo g U') x mu := by
  obtain ⟨H1, U1, h1, h2⟩ := C51_full_trajectory ok eo hT hq E hE jq name hn tau n m hn0 hm H U
  rw [h] at h1; cases h1
  have hrep : RepEo g (K, V) (rotated g G (globEo g H, globEo g U)) := fun x hx => ⟨funext (hK x hx), funext (hV x hx)⟩
  obtain ⟨⟨H2, U2⟩, k1, k2⟩ := macro_rep ok eo hT hq E' hE' jq' name hn tau n m hn0 hm _ hrep
  rw [h'] at k1; cases k1
  intro x hx mu
  have h3 := (Agree.trans k2 (runs_rotated ok hT G hG hC (fullTraj tau n m) _)) x hx
  refine ⟨(congrFun h3.1 mu).trans ?_, (congrFun h3.2 mu).trans ?_⟩
  · simp only [rotated]; rw [(h2 x hx).1]
  · simp only [rotated, transformed]
    rw [(h2 x hx).2]

end

/-! ### Concrete cases -/

example (U : Nat → Nat → Nat → Quad) : ∃ H' U', macroEvolution fcGeo (fun _ _ => fcEnv) 0 (fun _ _ _ _ _ => 0) false .tlsym (7 / 2) ⟨1, (10 : Nat), (5 : Nat)⟩
    (fun rk p e => fcMom rk e, U) = some (H', U') ∧ ∀ x ∈ box fcGeo.L, ∀ mu, (globEo fcGeo H' x mu)ᴴ = globEo fcGeo H' x mu ∧ (globEo fcGeo H' x mu).trace = 0 := by
  have hT : Theory.Local fcGeo ⟨7 / 2, C1_TLSYM, fun _ _ _ => 0⟩ := fun _ _ _ _ _ => rfl
  have hA : Theory.Algebra fcGeo ⟨7 / 2, C1_TLSYM, fun _ _ _ => 0⟩ := fun _ _ _ _ => by simp
  have hc : c1Of .tlsym = some C1_TLSYM := by simp only [c1Of, C1_TLSYM]; norm_num
  obtain ⟨H', U', h1, -⟩ := C51_full_trajectory (g := fcGeo) (T := ⟨7 / 2, C1_TLSYM, fun _ _ _ => 0⟩) (by decide) (by decide) hT
    (qf := fun _ _ _ _ _ => 0) (fun _ _ _ => rfl) (fun _ _ => fcEnv) (fun _ _ => fcEnv_ok) 0 .tlsym hc 1 10 5 (by norm_num) (by norm_num)
    (fun rk p e => fcMom rk e) U
  exact ⟨H', U', h1, (C51_stays_in_group (g := fcGeo) (T := ⟨7 / 2, C1_TLSYM, fun _ _ _ => 0⟩) (by decide) (by decide) hT hA (qf := fun _ _ _ _ _ => 0) (fun _ _ _ => rfl)
    (fun _ _ => fcEnv) (fun _ _ => fcEnv_ok) 0 .tlsym hc 1 10 5 (by norm_num) (by norm_num) (fun rk p e => fcMom rk e) U H' U' (fun x hx mu => by unfold globEo; exact fcMom_ok _ _ _) h1).1⟩

/-- exponents along that generator are far from the truncated series -/
theorem gen_reg {k : ℝ} (hk : 1 / 10 ≤ k) : RegH (!![0, (k : ℂ), 0; (k : ℂ), 0, 0; 0, 0, 0] : M3) := by
  right
  set Q : M3 := !![0, (k : ℂ), 0; (k : ℂ), 0, 0; 0, 0, 0] with hQ
  have h1 : expC1 Q = k ^ 2 := by
    unfold expC1 su3_real_trace
    rw [hQ]
    simp [Matrix.mul_apply, Fin.sum_univ_three]
    ring
  have h0 : expC0 Q = 0 := by
    unfold expC0
    rw [hQ]
    rw [C31_real_det, Matrix.det_fin_three]
    simp
  have hm : 0 < expC0max Q := by
    unfold expC0max
    rw [h1]
    positivity
  have he : expEps Q = 1 := by
    unfold expEps
    rw [h0, sub_zero, div_self hm.ne']
  have ht : expTheta Q = Real.pi / 2 := by
    unfold expTheta
    rw [h0]
    simp [Real.arccos_zero]
  refine ⟨?_, ?_, ?_⟩
  · rw [h1]; nlinarith
  · rw [he]; norm_num
  · unfold expW
    rw [h1, ht, Real.sqrt_sq (by linarith), show Real.pi / 2 / 3 = Real.pi / 6 by ring, Real.sin_pi_div_six, abs_of_pos (by linarith)]
    linarith

/-- at zero coupling the momenta do not change, so the conditions of reversibility are met by trajectories whose links do move -/
theorem free_mom (l : List Step) (s : State) : (runs fcGeo ⟨0, 0, fun _ _ _ => 0⟩ l s).1 = s.1 := by
  induction l generalizing s with
  | nil => rfl
  | cons a l ih =>
    rw [runs_cons, ih]
    obtain ⟨H, U⟩ := s
    have hz : ∀ x mu, forceSpec 0 0 fcGeo U x mu = 0 := by
      intro x mu
      have h : stapleForce 0 0 fcGeo U x mu = 0 := by unfold stapleForce; simp
      unfold forceSpec
      rw [h, Matrix.mul_zero]
      unfold algPart
      simp
    cases a with
    | gauge a => simp only [Step.run, hz]; simp
    | quark a => simp [Step.run]
    | links b => rfl

example (U : Nat → Nat → Quad) : Fair fcGeo ⟨0, 0, fun _ _ _ => 0⟩ (gaugeTraj (12 / (3 : ℕ) / 2) 2) (glob fcGeo fcMom, glob fcGeo U) := by
  intro l1 b l2 hl x hx mu
  rw [free_mom]
  have hb : b = 1 / 2 := by
    have hm : Step.links b ∈ gaugeTraj (12 / (3 : ℕ) / 2) 2 := by rw [hl]; simp
    simp only [gaugeTraj, times, om, List.replicate, List.flatten, List.mem_append, List.mem_cons, List.not_mem_nil, or_false] at hm
    simp at hm
    rw [hm]; norm_num
  subst hb
  have hmu : ∀ mu : Dir, (1 / 10 : ℝ) ≤ (1 / 2) * ((mu.val + 1 : ℕ) : ℝ) := by
    intro mu
    push_cast
    have : (0 : ℝ) ≤ mu.val := by positivity
    linarith
  have h := gen_reg (k := (1 / 2) * ((mu.val + 1 : ℕ) : ℝ)) (hmu mu)
  convert h using 1
  unfold glob fcMom
  ext i j
  fin_cases i <;> fin_cases j <;> simp <;> ring

end

end Nissa.Omel
