import Verif.Hmc.Omelyan
import Verif.Hmc.PropsGaugeForce3
import Verif.Dirac.PropsEoPrec2
import Mathlib.Tactic.LinearCombination
import Mathlib.Tactic.Module
import Mathlib.Tactic.FieldSimp

/-! # The Omelyan integrator: the steps it performs

The specification is a sequence of elementary steps on the global lattice: changes of the momenta with one of the two forces, and motions
of the links at fixed momenta. -/

set_option linter.all false

namespace Nissa.Omel
open Nissa.Lx Nissa.Sten Nissa.Su3f Nissa.Gauge Nissa.GForce Nissa.EoP Nissa.Paths Nissa.LSm Matrix Complex

noncomputable section

/-! ### Specification -/

/-- momenta and links on the global lattice -/
abbrev State := (Coords → Quad) × (Coords → Quad)

/-- the theory: coupling, coefficient of the rectangles, quark force -/
structure Theory where
  beta : ℝ
  C1 : ℝ
  quark : (Coords → Quad) → Coords → Quad

/-- elementary steps: momenta moved for a time with the gauge or quark force, links moved for a time with the momenta -/
inductive Step where
  | gauge (a : ℝ)
  | quark (a : ℝ)
  | links (b : ℝ)

/-- Hamilton's equations with force `F`: `dH/dt = -i F`, `dU/dt = i H U` -/
def Step.run (g : Geo) (T : Theory) : Step → State → State
  | .gauge a, (H, U) => (fun x mu => H x mu - a • (I • forceSpec T.beta T.C1 g U x mu), U)
  | .quark a, (H, U) => (fun x mu => H x mu - a • (I • T.quark U x mu), U)
  | .links b, (H, U) => (H, fun x mu => hermitian_exact_i_exponentiate (b • H x mu) * U x mu)

def runs (g : Geo) (T : Theory) (l : List Step) (s : State) : State := l.foldl (fun s st => st.run g T s) s

/-- one second order minimum norm step of length `e` -/
def om (K : ℝ → Step) (D : ℝ → List Step) (e : ℝ) : List Step :=
  [K (0.1931833 * e)] ++ D (e / 2) ++ [K ((1 - 2 * 0.1931833) * e)] ++ D (e / 2) ++ [K (0.1931833 * e)]

/-- `n` times the same steps -/
def times (n : Nat) (l : List Step) : List Step := (List.replicate n l).flatten

/-- gauge evolution for a time `t` in `n` steps -/
def gaugeTraj (t : ℝ) (n : Nat) : List Step := times n (om .gauge (fun b => [.links b]) (t / n))

/-- full trajectory of length `t`: `n` steps of quark force, each of the two evolutions in between being done in `m` gauge steps -/
def fullTraj (t : ℝ) (n m : Nat) : List Step := times n (om .quark (fun b => gaugeTraj b m) (t / n))

/-- equality on the sites of the lattice -/
def Agree (g : Geo) (s t : State) : Prop := ∀ x ∈ box g.L, s.1 x = t.1 x ∧ s.2 x = t.2 x

/-- the quark force depends only on the links of the lattice -/
def Theory.Local (g : Geo) (T : Theory) : Prop := ∀ U V : Coords → Quad, (∀ x ∈ box g.L, U x = V x) → ∀ x ∈ box g.L, T.quark U x = T.quark V x

/-! ### Agreement -/

theorem Agree.refl {g : Geo} (s : State) : Agree g s s := fun _ _ => ⟨rfl, rfl⟩
theorem Agree.symm {g : Geo} {s t : State} (h : Agree g s t) : Agree g t s := fun x hx => ⟨(h x hx).1.symm, (h x hx).2.symm⟩
theorem Agree.trans {g : Geo} {s t u : State} (h : Agree g s t) (k : Agree g t u) : Agree g s u :=
  fun x hx => ⟨(h x hx).1.trans (k x hx).1, (h x hx).2.trans (k x hx).2⟩

theorem runs_append (g : Geo) (T : Theory) (l k : List Step) (s : State) : runs g T (l ++ k) s = runs g T k (runs g T l s) := by
  unfold runs; rw [List.foldl_append]

theorem runs_cons (g : Geo) (T : Theory) (a : Step) (k : List Step) (s : State) : runs g T (a :: k) s = runs g T k (a.run g T s) := rfl

theorem runs_nil (g : Geo) (T : Theory) (s : State) : runs g T [] s = s := rfl

section
variable {g : Geo} (ok : g.Ok) {T : Theory} (hT : T.Local g)
include ok hT

theorem step_agree (a : Step) {s t : State} (h : Agree g s t) : Agree g (a.run g T s) (a.run g T t) := by
  obtain ⟨H, U⟩ := s
  obtain ⟨H', U'⟩ := t
  intro x hx
  obtain ⟨h1, h2⟩ := h x hx
  simp only at h1 h2
  have hU : ∀ x ∈ box g.L, U x = U' x := fun x hx => (h x hx).2
  cases a with
  | gauge a =>
    refine ⟨?_, h2⟩
    funext mu
    simp only [Step.run]
    rw [h1, forceSpec_congr ok hU _ _ hx]
  | quark a =>
    refine ⟨?_, h2⟩
    funext mu
    simp only [Step.run]
    rw [h1, hT U U' hU x hx]
  | links b =>
    refine ⟨h1, ?_⟩
    funext mu
    simp only [Step.run]
    rw [h1, h2]

theorem runs_agree (l : List Step) {s t : State} (h : Agree g s t) : Agree g (runs g T l s) (runs g T l t) := by
  induction l generalizing s t with
  | nil => exact h
  | cons a l ih => exact ih (step_agree ok hT a h)

end

theorem times_succ (n : Nat) (l : List Step) : times (n + 1) l = times n l ++ l := by
  unfold times
  rw [List.replicate_succ', List.flatten_append]
  simp

theorem kick_merge (g : Geo) (T : Theory) (K : ℝ → Step) (hK : K = .gauge ∨ K = .quark) (a b : ℝ) (s : State) :
    (K b).run g T ((K a).run g T s) = (K (a + b)).run g T s := by
  obtain ⟨H, U⟩ := s
  rcases hK with rfl | rfl <;>
  · simp only [Step.run]
    refine Prod.ext ?_ rfl
    funext x mu
    simp only
    module

/-- the loop of the program, in which the last kick of each step is joined to the first of the next one -/
theorem om_fold {σ : Type} {g : Geo} (ok : g.Ok) {T : Theory} (hT : T.Local g) (K : ℝ → Step) (hK : K = .gauge ∨ K = .quark) (D : ℝ → List Step) (e : ℝ)
    (R : σ → State → Prop) (body : σ → Nat → Option σ) (n : Nat) (hn : 0 < n)
    (hb : ∀ s t j, j < n → R s t → ∃ s', body s j = some s' ∧
      R s' (runs g T (D (e / 2) ++ [K ((1 - 2 * 0.1931833) * e)] ++ D (e / 2) ++ [K (if j + 1 = n then 0.1931833 * e else 2 * 0.1931833 * e)]) t))
    (s0 : σ) (t0 : State) (h0 : R s0 ((K (0.1931833 * e)).run g T t0)) :
    ∃ s', (List.range n).foldlM body s0 = some s' ∧ R s' (runs g T (times n (om K D e)) t0) := by
  have key : ∀ k, k ≤ n → ∃ s', (List.range k).foldlM body s0 = some s' ∧
      R s' (runs g T (times k (om K D e) ++ if k < n then [K (0.1931833 * e)] else []) t0) := by
    intro k
    induction k with
    | zero =>
      intro _
      exact ⟨s0, rfl, by rw [if_pos hn]; exact h0⟩
    | succ k ih =>
      intro hk
      obtain ⟨s1, h1, h2⟩ := ih (by omega)
      obtain ⟨s2, h3, h4⟩ := hb _ _ k (by omega) h2
      refine ⟨s2, ?_, ?_⟩
      · rw [List.range_succ, List.foldlM_append, h1]
        show [k].foldlM body s1 = _
        simp [List.foldlM, h3]
      · rw [← runs_append, if_pos (show k < n by omega)] at h4
        rw [times_succ]
        by_cases hk1 : k + 1 = n
        · rw [if_neg (by omega)]
          rw [if_pos hk1] at h4
          convert h4 using 2
          simp [om, List.append_assoc]
        · rw [if_pos (by omega)]
          rw [if_neg hk1] at h4
          convert h4 using 1
          simp only [om, List.append_assoc, runs_append, runs_cons, runs_nil]
          rw [kick_merge g T K hK]
          congr 2
          ring
  obtain ⟨s', h1, h2⟩ := key n le_rfl
  rw [if_neg (by omega), List.append_nil] at h2
  exact ⟨s', h1, h2⟩

/-! ### The gauge evolver -/

section
variable {g : Geo} (ok : g.Ok)
include ok

/-- the momenta and links of the program represent a state of the global lattice -/
def Rep (g : Geo) (s : (Nat → Nat → Quad) × (Nat → Nat → Quad)) (t : State) : Prop := Agree g (glob g s.1, glob g s.2) t

theorem Rep.agree {s : (Nat → Nat → Quad) × (Nat → Nat → Quad)} {t u : State} (h : Rep g s t) (k : Agree g t u) : Rep g s u := Agree.trans h k

theorem kick_rep {T : Theory} (hT : T.Local g) (E : Env) (hE : E.Ok) (name : ActName) (hn : c1Of name = some T.C1) (H U : Nat → Nat → Quad) (a : ℝ) {t : State} (h : Rep g (H, U) t) :
    ∃ H', evolve_momenta_with_pure_gauge_force g E H U name T.beta a = some H' ∧ Rep g (H', U) ((Step.gauge a).run g T t) := by
  obtain ⟨F, h1, h2, -⟩ := C50_force ok E hE U name T.beta T.C1 hn
  refine ⟨_, by unfold evolve_momenta_with_pure_gauge_force; rw [h1]; rfl, ?_⟩
  refine Agree.trans ?_ (step_agree ok hT (.gauge a) h)
  intro x hx
  refine ⟨?_, rfl⟩
  funext mu
  simp only [Step.run]
  rw [← h2 x hx mu]
  exact evolve_mom_val H F a _ _ mu

theorem drift_rep {T : Theory} (hT : T.Local g) (H U : Nat → Nat → Quad) (b : ℝ) {t : State} (h : Rep g (H, U) t) :
    Rep g (H, evolve_lx_conf_with_momenta U H b) ((Step.links b).run g T t) := by
  refine Agree.trans ?_ (step_agree ok hT (.links b) h)
  intro x hx
  refine ⟨rfl, ?_⟩
  funext mu
  simp only [Step.run]
  exact evolve_conf_val U H b _ _ mu

theorem gauge_evolver_rep {T : Theory} (hT : T.Local g) (E : Nat → Env) (hE : ∀ n, (E n).Ok) (name : ActName) (hn : c1Of name = some T.C1) (tau : ℝ) (n m : Nat) (hm : 0 < m)
    (s : (Nat → Nat → Quad) × (Nat → Nat → Quad)) {t : State} (h : Rep g s t) :
    ∃ s', Omelyan_pure_gauge_evolver_lx_conf g E name T.beta ⟨tau, n, m⟩ s.1 s.2 = some s' ∧ Rep g s' (runs g T (gaugeTraj (tau / n / 2) m) t) := by
  unfold Omelyan_pure_gauge_evolver_lx_conf
  simp only
  have hd : tau / ((n : Int) : ℝ) / ((m : Int) : ℝ) / 2 = tau / n / 2 / m := by push_cast; ring
  rw [hd]
  have hl : omelyan_lambda = 0.1931833 := rfl
  rw [hl]
  obtain ⟨H1, k1, k2⟩ := kick_rep ok hT (E 0) (hE 0) name hn s.1 s.2 (tau / n / 2 / m * 0.1931833) h
  rw [k1]
  simp only [Option.bind_some, Int.toNat_natCast]
  refine om_fold ok hT .gauge (Or.inl rfl) (fun b => [.links b]) (tau / n / 2 / m) (Rep g) _ m hm ?_ (H1, s.2) t (by rw [mul_comm]; exact k2)
  rintro ⟨H, U⟩ t j hj hr
  unfold gaugeMicroStep
  simp only
  obtain ⟨H2, q1, q2⟩ := kick_rep ok hT (E (2 * j + 1)) (hE _) name hn H _ ((1 - 2 * 0.1931833) * (tau / n / 2 / m))
    (drift_rep ok hT H U (tau / n / 2 / m / 2) hr)
  rw [q1]
  simp only [Option.bind_some]
  obtain ⟨H3, r1, r2⟩ := kick_rep ok hT (E (2 * j + 2)) (hE _) name hn H2 _
    (if (j : Int) = (m : Int) - 1 then tau / n / 2 / m * 0.1931833 else 2 * 0.1931833 * (tau / n / 2 / m))
    (drift_rep ok hT H2 _ (tau / n / 2 / m / 2) q2)
  rw [r1]
  refine ⟨_, rfl, ?_⟩
  have e : (if (j : Int) = (m : Int) - 1 then tau / n / 2 / m * 0.1931833 else 2 * 0.1931833 * (tau / n / 2 / m)) =
      (if j + 1 = m then 0.1931833 * (tau / n / 2 / m) else 2 * 0.1931833 * (tau / n / 2 / m)) := by
    by_cases hj : j + 1 = m
    · rw [if_pos (by omega), if_pos hj, mul_comm]
    · rw [if_neg (by omega), if_neg hj]
  rw [e] at r2
  exact r2

/-- C51: the gauge evolver performs, on the global lattice and for every grid of ranks, contents of the buffers and order of visit, `m`
second order minimum norm steps covering half of a macroscopic step; it does not crash if the action is specified. -/
theorem C51_gauge_evolver (E : Nat → Env) (hE : ∀ n, (E n).Ok) (name : ActName) (beta C1 : ℝ) (hn : c1Of name = some C1) (tau : ℝ) (n m : Nat) (hm : 0 < m)
    (H U : Nat → Nat → Quad) : ∃ H' U', Omelyan_pure_gauge_evolver_lx_conf g E name beta ⟨tau, n, m⟩ H U = some (H', U') ∧
      ∀ x ∈ box g.L, glob g H' x = (runs g ⟨beta, C1, fun _ _ _ => 0⟩ (gaugeTraj (tau / n / 2) m) (glob g H, glob g U)).1 x ∧
        glob g U' x = (runs g ⟨beta, C1, fun _ _ _ => 0⟩ (gaugeTraj (tau / n / 2) m) (glob g H, glob g U)).2 x := by
  obtain ⟨⟨H', U'⟩, h1, h2⟩ := gauge_evolver_rep (T := ⟨beta, C1, fun _ _ _ => 0⟩) ok (fun _ _ _ _ _ => rfl) E hE name hn tau n m hm (H, U) (Agree.refl _)
  exact ⟨H', U', h1, h2⟩

/-! ### The full trajectory -/

def RepEo (g : Geo) (s : (Nat → Nat → Nat → Quad) × (Nat → Nat → Nat → Quad)) (t : State) : Prop := Agree g (globEo g s.1, globEo g s.2) t

/-- the parameter `qf` is the quark force of the theory -/
def QuarkIs (g : Geo) (qf : (Nat → Nat → Nat → Quad) → Nat → Nat → Nat → Quad) (T : Theory) : Prop :=
  ∀ U x, x ∈ box g.L → globEo g (qf U) x = T.quark (globEo g U) x

theorem eo_evolver_rep (eo : EoOk g) {T : Theory} (hT : T.Local g) (E : Nat → Env) (hE : ∀ n, (E n).Ok) (jq : Quad) (name : ActName) (hn : c1Of name = some T.C1)
    (tau : ℝ) (n m : Nat) (hm : 0 < m) (s : (Nat → Nat → Nat → Quad) × (Nat → Nat → Nat → Quad)) {t : State} (h : RepEo g s t) :
    ∃ s', Omelyan_pure_gauge_evolver_eo_conf g E jq name T.beta ⟨tau, n, m⟩ s = some s' ∧ RepEo g s' (runs g T (gaugeTraj (tau / n / 2) m) t) := by
  have h1 : Rep g (pasteFld g jq s.1, pasteFld g jq s.2) t := fun x hx =>
    ⟨(glob_paste ok eo jq s.1 hx).trans (h x hx).1, (glob_paste ok eo jq s.2 hx).trans (h x hx).2⟩
  obtain ⟨s', h2, h3⟩ := gauge_evolver_rep ok hT E hE name hn tau n m hm _ h1
  unfold Omelyan_pure_gauge_evolver_eo_conf
  simp only at h2 ⊢
  rw [h2]
  exact ⟨_, rfl, fun x hx => ⟨(glob_split ok eo jq s'.1 hx).trans (h3 x hx).1, (glob_split ok eo jq s'.2 hx).trans (h3 x hx).2⟩⟩

theorem quark_rep {T : Theory} (hT : T.Local g) {qf : (Nat → Nat → Nat → Quad) → Nat → Nat → Nat → Quad} (hq : QuarkIs g qf T)
    (s : (Nat → Nat → Nat → Quad) × (Nat → Nat → Nat → Quad)) (a : ℝ) {t : State} (h : RepEo g s t) :
    ∃ s', macroKick qf false s a = some s' ∧ RepEo g s' ((Step.quark a).run g T t) := by
  refine ⟨_, rfl, Agree.trans ?_ (step_agree ok hT (.quark a) h)⟩
  intro x hx
  refine ⟨?_, rfl⟩
  funext mu
  simp only [Step.run]
  rw [← hq s.2 x hx]
  unfold globEo evolve_momenta_with_quark_force
  ext i j
  apply Complex.ext <;> simp [mul_comm]

theorem macro_rep (eo : EoOk g) {T : Theory} (hT : T.Local g) {qf : (Nat → Nat → Nat → Quad) → Nat → Nat → Nat → Quad} (hq : QuarkIs g qf T)
    (E : Nat → Nat → Env) (hE : ∀ n k, (E n k).Ok) (jq : Quad) (name : ActName) (hn : c1Of name = some T.C1)
    (tau : ℝ) (n m : Nat) (hn0 : 0 < n) (hm : 0 < m) (s : (Nat → Nat → Nat → Quad) × (Nat → Nat → Nat → Quad)) {t : State} (h : RepEo g s t) :
    ∃ s', macroEvolution g E jq qf false name T.beta ⟨tau, n, m⟩ s = some s' ∧ RepEo g s' (runs g T (fullTraj tau n m) t) := by
  unfold macroEvolution
  simp only
  have hl : omelyan_lambda = 0.1931833 := rfl
  rw [hl]
  obtain ⟨s1, k1, k2⟩ := quark_rep ok hT hq s (tau / ((n : Int) : ℝ) * 0.1931833) h
  rw [k1]
  have hd : tau / ((n : Int) : ℝ) = tau / n := by push_cast; ring
  rw [hd] at k2 ⊢
  simp only [Option.bind_some, Int.toNat_natCast]
  refine om_fold ok hT .quark (Or.inr rfl) (fun b => gaugeTraj b m) (tau / n) (RepEo g) _ n hn0 ?_ s1 t (by rw [mul_comm]; exact k2)
  intro s t j hj hr
  unfold macroStep
  simp only
  obtain ⟨s2, q1, q2⟩ := eo_evolver_rep ok eo hT (E (2 * j)) (hE _) jq name hn tau n m hm s hr
  rw [q1]
  simp only [Option.bind_some]
  obtain ⟨s3, r1, r2⟩ := quark_rep ok hT hq s2 ((1 - 2 * 0.1931833) * (tau / n)) q2
  rw [r1]
  simp only [Option.bind_some]
  obtain ⟨s4, u1, u2⟩ := eo_evolver_rep ok eo hT (E (2 * j + 1)) (hE _) jq name hn tau n m hm s3 r2
  rw [u1]
  simp only [Option.bind_some]
  obtain ⟨s5, v1, v2⟩ := quark_rep ok hT hq s4 (if (j : Int) = (n : Int) - 1 then tau / n * 0.1931833 else 2 * 0.1931833 * (tau / n)) u2
  rw [v1]
  refine ⟨s5, rfl, ?_⟩
  have e : (if (j : Int) = (n : Int) - 1 then tau / n * 0.1931833 else 2 * 0.1931833 * (tau / n)) =
      (if j + 1 = n then 0.1931833 * (tau / n) else 2 * 0.1931833 * (tau / n)) := by
    by_cases hj : j + 1 = n
    · rw [if_pos (by omega), if_pos hj, mul_comm]
    · rw [if_neg (by omega), if_neg hj]
  rw [e] at v2
  simpa only [runs_append, runs_cons, runs_nil] using v2

/-- C51: before the final projection of the links the integrator has performed `n` second order minimum norm steps with the quark force,
in each of which the two halves of the evolution are done by `m` such steps with the gauge force. -/
theorem C51_full_trajectory (eo : EoOk g) {T : Theory} (hT : T.Local g) {qf : (Nat → Nat → Nat → Quad) → Nat → Nat → Nat → Quad} (hq : QuarkIs g qf T)
    (E : Nat → Nat → Env) (hE : ∀ n k, (E n k).Ok) (jq : Quad) (name : ActName) (hn : c1Of name = some T.C1)
    (tau : ℝ) (n m : Nat) (hn0 : 0 < n) (hm : 0 < m) (H U : Nat → Nat → Nat → Quad) :
    ∃ H' U', macroEvolution g E jq qf false name T.beta ⟨tau, n, m⟩ (H, U) = some (H', U') ∧ ∀ x ∈ box g.L,
      globEo g H' x = (runs g T (fullTraj tau n m) (globEo g H, globEo g U)).1 x ∧ globEo g U' x = (runs g T (fullTraj tau n m) (globEo g H, globEo g U)).2 x := by
  obtain ⟨⟨H', U'⟩, h1, h2⟩ := macro_rep ok eo hT hq E hE jq name hn tau n m hn0 hm (H, U) (Agree.refl _)
  exact ⟨H', U', h1, h2⟩

omit ok in
/-- C51: with zero steps the integrator leaves everything as it is, without projecting the links; if the topological force is asked for
it crashes. -/
theorem C51_special_cases (E : Nat → Nat → Env) (jq : Quad) (reuni : M3 → M3) (precision : ℝ) (niter_max : ℕ)
    (qf : (Nat → Nat → Nat → Quad) → Nat → Nat → Nat → Quad) (topo : Bool) (name : ActName) (beta : ℝ) (simul : EvolPars) (s : (Nat → Nat → Nat → Quad) × (Nat → Nat → Nat → Quad)) :
    (simul.nmd_steps = 0 → Omelyan_integrator g E jq reuni precision niter_max qf topo name beta simul s = some s) ∧
    (simul.nmd_steps ≠ 0 → topo = true → Omelyan_integrator g E jq reuni precision niter_max qf topo name beta simul s = none) := by
  constructor
  · intro h; unfold Omelyan_integrator; rw [if_neg (by simpa using h)]
  · rintro h rfl
    unfold Omelyan_integrator
    rw [if_pos h]
    rfl

omit ok in
theorem foldlM_none {σ : Type} (body : σ → Nat → Option σ) (h : ∀ s j, body s j = none) (s : σ) {n : Nat} (hn : 0 < n) : (List.range n).foldlM body s = none := by
  obtain ⟨k, rfl⟩ : ∃ k, n = k + 1 := ⟨n - 1, by omega⟩
  rw [List.range_succ_eq_map]
  simp [List.foldlM, h]

omit ok in
/-- C51: if the gauge action is not specified the integrator crashes. -/
theorem C51_unspecified (E : Nat → Nat → Env) (jq : Quad) (reuni : M3 → M3) (precision : ℝ) (niter_max : ℕ)
    (qf : (Nat → Nat → Nat → Quad) → Nat → Nat → Nat → Quad) (topo : Bool) (beta : ℝ) (simul : EvolPars) (hs : 0 < simul.nmd_steps)
    (s : (Nat → Nat → Nat → Quad) × (Nat → Nat → Nat → Quad)) : Omelyan_integrator g E jq reuni precision niter_max qf topo .unspec beta simul s = none := by
  unfold Omelyan_integrator
  rw [if_pos (by omega)]
  have : macroEvolution g E jq qf topo .unspec beta simul s = none := by
    unfold macroEvolution
    simp only
    cases macroKick qf topo s (simul.traj_length / simul.nmd_steps * omelyan_lambda) with
    | none => rfl
    | some s1 =>
      simp only [Option.bind_some]
      exact foldlM_none _ (fun s j => rfl) s1 (by omega)
  rw [this]
  rfl

/-- C51: when the integrator returns, the momenta are those of the trajectory and each link is the special unitary matrix obtained by
projecting the corresponding one at the end of the trajectory. -/
theorem C51_integrator (eo : EoOk g) {T : Theory} (hT : T.Local g) {qf : (Nat → Nat → Nat → Quad) → Nat → Nat → Nat → Quad} (hq : QuarkIs g qf T)
    (E : Nat → Nat → Env) (hE : ∀ n k, (E n k).Ok) (jq : Quad) (reuni : M3 → M3) (precision : ℝ) (niter_max : ℕ) (name : ActName)
    (hn : c1Of name = some T.C1) (tau : ℝ) (n m : Nat) (hn0 : 0 < n) (hm : 0 < m) (H U H' U' : Nat → Nat → Nat → Quad)
    (h : Omelyan_integrator g E jq reuni precision niter_max qf false name T.beta ⟨tau, n, m⟩ (H, U) = some (H', U')) : ∀ x ∈ box g.L,
      globEo g H' x = (runs g T (fullTraj tau n m) (globEo g H, globEo g U)).1 x ∧ ∀ mu, IsSU3 (globEo g U' x mu) ∧
        su3_unitarize_maximal_trace_projecting reuni ((runs g T (fullTraj tau n m) (globEo g H, globEo g U)).2 x mu) precision niter_max = some (globEo g U' x mu) := by
  obtain ⟨H1, U1, h1, h2⟩ := C51_full_trajectory ok eo hT hq E hE jq name hn tau n m hn0 hm H U
  unfold Omelyan_integrator at h
  rw [if_pos (by simp; omega), h1] at h
  simp only [Option.bind_some] at h
  unfold unitarize_eo_conf at h
  simp only at h
  split at h
  · rename_i hs
    simp only [Option.map_some, Option.some.injEq, Prod.mk.injEq] at h
    obtain ⟨rfl, rfl⟩ := h
    intro x hx
    refine ⟨(h2 x hx).1, fun mu => ?_⟩
    have key : su3_unitarize_maximal_trace_projecting reuni ((runs g T (fullTraj tau n m) (globEo g H, globEo g U)).2 x mu) precision niter_max =
        some (globEo g (fun rk par ivol mu => (su3_unitarize_maximal_trace_projecting reuni (U1 rk par ivol mu) precision niter_max).getD (U1 rk par ivol mu)) x mu) := by
      rw [← (h2 x hx).2]
      obtain ⟨rk, e, l, k1, k2, -, -, -, k3, -⟩ := eoSiteOf ok eo hx
      obtain ⟨V, hV⟩ := Option.isSome_iff_exists.1 (hs rk k1 (par x) (Nat.mod_lt _ (by norm_num)) e k2 mu)
      rw [k3, k3, hV]
      rfl
    exact ⟨(C37_max_trace reuni _ _ _ _ key).1, key⟩
  · cases h

end

end

end Nissa.Omel
