import Verif.Hmc.GaugeForce
import Verif.Dirac.EoPrec

/-! # The Omelyan integrator of the molecular dynamics

Real numbers stand for `double`.  The fields of all the ranks are functions of the rank and of the local site, as in `GaugeForce`.  The
quark force `compute_quark_force` is a parameter, an arbitrary function of the configuration of all the ranks. -/

set_option linter.all false

namespace Nissa.Omel
open Nissa.Lx Nissa.Sten Nissa.Su3f Nissa.Gauge Nissa.GForce Nissa.EoP Matrix Complex

noncomputable section

/-- `omelyan_lambda`.  `/repo/src/hmc/hmc.hpp:7` -/
def omelyan_lambda : ℝ := 0.1931833

/-- The parameters of `hmc_evol_pars_t` read by the integrator; the two numbers of steps are `int`.
`/repo/src/hmc/multipseudo/multipseudo_rhmc_step.hpp:14-23` -/
structure EvolPars where
  traj_length : ℝ
  nmd_steps : Int
  ngauge_substeps : Int

/-- The body of the loop of the gauge evolver.  Each of the two forces is computed in its own environment (contents of the buffers and
orders of visit).  The microscopic topological force is excluded by `TOPO_EVOLUTION`, defined as `TOPO_MACRO`.
`/repo/src/hmc/multipseudo/Omelyan_integrator.cpp:86-110` and `:15-18` -/
def gaugeMicroStep (g : Geo) (E : Nat → Env) (name : ActName) (beta dth uml2dt ldt l2dt : ℝ) (nsteps : Int)
    (s : (Nat → Nat → Quad) × (Nat → Nat → Quad)) (istep : Nat) : Option ((Nat → Nat → Quad) × (Nat → Nat → Quad)) :=
  let last_dt := if (istep : Int) = nsteps - 1 then ldt else l2dt
  let conf := evolve_lx_conf_with_momenta s.2 s.1 dth
  (evolve_momenta_with_pure_gauge_force g (E (2 * istep + 1)) s.1 conf name beta uml2dt).bind fun H =>
  let conf := evolve_lx_conf_with_momenta conf H dth
  (evolve_momenta_with_pure_gauge_force g (E (2 * istep + 2)) H conf name beta last_dt).map fun H => (H, conf)

/-- `Omelyan_pure_gauge_evolver_lx_conf`: `none` when the action is not specified, which crashes in the computation of the force.
`/repo/src/hmc/multipseudo/Omelyan_integrator.cpp:66-112` -/
def Omelyan_pure_gauge_evolver_lx_conf (g : Geo) (E : Nat → Env) (name : ActName) (beta : ℝ) (simul : EvolPars) (H conf : Nat → Nat → Quad) :
    Option ((Nat → Nat → Quad) × (Nat → Nat → Quad)) :=
  let dt := simul.traj_length / simul.nmd_steps / simul.ngauge_substeps / 2
  let dth := dt / 2
  let ldt := dt * omelyan_lambda
  let l2dt := 2 * omelyan_lambda * dt
  let uml2dt := (1 - 2 * omelyan_lambda) * dt
  let nsteps := simul.ngauge_substeps
  (evolve_momenta_with_pure_gauge_force g (E 0) H conf name beta ldt).bind fun H =>
  (List.range nsteps.toNat).foldlM (gaugeMicroStep g E name beta dth uml2dt ldt l2dt nsteps) (H, conf)

/-- `Omelyan_pure_gauge_evolver_eo_conf`; `jq` is the content of the entries not written by the reordering.
`/repo/src/hmc/multipseudo/Omelyan_integrator.cpp:115-130` -/
def Omelyan_pure_gauge_evolver_eo_conf (g : Geo) (E : Nat → Env) (jq : Quad) (name : ActName) (beta : ℝ) (simul : EvolPars)
    (s : (Nat → Nat → Nat → Quad) × (Nat → Nat → Nat → Quad)) : Option ((Nat → Nat → Nat → Quad) × (Nat → Nat → Nat → Quad)) :=
  let H_lx := pasteFld g jq s.1
  let conf_lx := pasteFld g jq s.2
  (Omelyan_pure_gauge_evolver_lx_conf g E name beta simul H_lx conf_lx).map fun t => (splitFld g jq t.1, splitFld g jq t.2)

/-- `evolve_momenta_with_quark_force`, the force `qf` being a parameter.  `/repo/src/hmc/multipseudo/Omelyan_integrator.cpp:135-238` (the
part under `DEBUG_FORCE` is not compiled) -/
def evolve_momenta_with_quark_force (qf : (Nat → Nat → Nat → Quad) → Nat → Nat → Nat → Quad) (H conf : Nat → Nat → Nat → Quad) (dt : ℝ) :
    Nat → Nat → Nat → Quad := fun rk par ivol mu ic1 ic2 =>
  let b := qf conf rk par ivol mu ic1 ic2
  let a := H rk par ivol mu ic1 ic2
  ⟨a.re + b.im * dt, a.im - b.re * dt⟩

/-- `evolve_eo_momenta_with_topological_force` is not implemented: it crashes.  `/repo/src/hmc/multipseudo/Omelyan_integrator.cpp:43-63` -/
def evolve_eo_momenta_with_topological_force (H conf : Nat → Nat → Nat → Quad) (dt : ℝ) : Option (Nat → Nat → Nat → Quad) := none

/-- kick of the momenta with the quark force and, if the flag is set, with the topological one.
`/repo/src/hmc/multipseudo/Omelyan_integrator.cpp:258-259, :270-271, :274-275` -/
def macroKick (qf : (Nat → Nat → Nat → Quad) → Nat → Nat → Nat → Quad) (topo : Bool)
    (s : (Nat → Nat → Nat → Quad) × (Nat → Nat → Nat → Quad)) (dt : ℝ) : Option ((Nat → Nat → Nat → Quad) × (Nat → Nat → Nat → Quad)) :=
  let H := evolve_momenta_with_quark_force qf s.1 s.2 dt
  if topo then (evolve_eo_momenta_with_topological_force H s.2 dt).map fun H => (H, s.2) else some (H, s.2)

/-- the body of the loop of `Omelyan_integrator`.  `/repo/src/hmc/multipseudo/Omelyan_integrator.cpp:262-276` -/
def macroStep (g : Geo) (E : Nat → Nat → Env) (jq : Quad) (qf : (Nat → Nat → Nat → Quad) → Nat → Nat → Nat → Quad) (topo : Bool) (name : ActName)
    (beta : ℝ) (simul : EvolPars) (uml2dt ldt l2dt : ℝ) (nsteps : Int) (s : (Nat → Nat → Nat → Quad) × (Nat → Nat → Nat → Quad)) (istep : Nat) :
    Option ((Nat → Nat → Nat → Quad) × (Nat → Nat → Nat → Quad)) :=
  let last_dt := if (istep : Int) = nsteps - 1 then ldt else l2dt
  (Omelyan_pure_gauge_evolver_eo_conf g (E (2 * istep)) jq name beta simul s).bind fun s =>
  (macroKick qf topo s uml2dt).bind fun s =>
  (Omelyan_pure_gauge_evolver_eo_conf g (E (2 * istep + 1)) jq name beta simul s).bind fun s =>
  macroKick qf topo s last_dt

/-- `Omelyan_integrator` up to the final projection of the links.  `/repo/src/hmc/multipseudo/Omelyan_integrator.cpp:250-276` -/
def macroEvolution (g : Geo) (E : Nat → Nat → Env) (jq : Quad) (qf : (Nat → Nat → Nat → Quad) → Nat → Nat → Nat → Quad) (topo : Bool)
    (name : ActName) (beta : ℝ) (simul : EvolPars) (s : (Nat → Nat → Nat → Quad) × (Nat → Nat → Nat → Quad)) :
    Option ((Nat → Nat → Nat → Quad) × (Nat → Nat → Nat → Quad)) :=
  let nsteps := simul.nmd_steps
  let dt := simul.traj_length / simul.nmd_steps
  let ldt := dt * omelyan_lambda
  let l2dt := 2 * omelyan_lambda * dt
  let uml2dt := (1 - 2 * omelyan_lambda) * dt
  (macroKick qf topo s ldt).bind fun s =>
  (List.range nsteps.toNat).foldlM (macroStep g E jq qf topo name beta simul uml2dt ldt l2dt nsteps) s

/-- `unitarize_eo_conf_maximal_trace_projecting`: `none` if, on a site of a rank, the projection crashes for not having converged within
`niter_max` iterations.  `/repo/src/operations/gaugeconf.cpp:256-274` -/
def unitarize_eo_conf (g : Geo) (reuni : M3 → M3) (precision : ℝ) (niter_max : ℕ) (conf : Nat → Nat → Nat → Quad) : Option (Nat → Nat → Nat → Quad) :=
  let P := fun rk par ivol mu => su3_unitarize_maximal_trace_projecting reuni (conf rk par ivol mu) precision niter_max
  open Classical in
  if ∀ rk, rk < g.nranks → ∀ par, par < 2 → ∀ ivol, ivol < g.locVol / 2 → ∀ mu, (P rk par ivol mu).isSome then
    some fun rk par ivol mu => (P rk par ivol mu).getD (conf rk par ivol mu)
  else none

/-- `Omelyan_integrator`.  `/repo/src/hmc/multipseudo/Omelyan_integrator.cpp:243-282` -/
def Omelyan_integrator (g : Geo) (E : Nat → Nat → Env) (jq : Quad) (reuni : M3 → M3) (precision : ℝ) (niter_max : ℕ)
    (qf : (Nat → Nat → Nat → Quad) → Nat → Nat → Nat → Quad) (topo : Bool) (name : ActName) (beta : ℝ) (simul : EvolPars)
    (s : (Nat → Nat → Nat → Quad) × (Nat → Nat → Nat → Quad)) : Option ((Nat → Nat → Nat → Quad) × (Nat → Nat → Nat → Quad)) :=
  if simul.nmd_steps ≠ 0 then
    (macroEvolution g E jq qf topo name beta simul s).bind fun s =>
    (unitarize_eo_conf g reuni precision niter_max s.2).map fun conf => (s.1, conf)
  else some s

end

end Nissa.Omel
