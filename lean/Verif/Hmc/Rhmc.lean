import Verif.Hmc.PropsQuark2
import Verif.Rational.Expansions

/-! # The step of the RHMC

Model of `multipseudo_rhmc_step` (hmc/multipseudo/multipseudo_rhmc_step.cpp) with the routines it calls which are not modelled elsewhere:
generation of the pseudofermions (hmc/fermions/pseudofermions_generation.cpp), search of the largest eigenvalue (`max_eigenval`,
hmc/multipseudo/set_expansions.cpp), sum of the actions (`full_theory_action`, hmc/multipseudo/theory_action.cpp), Metropolis test
(routines/math_routines.cpp).

Real numbers stand for `double`.  The random fields are parameters.  Without smearing of the links (`nlevels=0`: the links seen by the quarks
are the very same object as `out_conf`) and without topological potential.  `none` is a crash. -/

set_option linter.all false

namespace Nissa.Rhmc
open Nissa.Lx Nissa.Sten Nissa.Su3f Nissa.Gauge Nissa.GForce Nissa.LSm Nissa.StD Nissa.Back Nissa.CgF Nissa.Inv Nissa.QForce Nissa.Omel Matrix Complex
open Nissa.Remez (RatApprox Discretiz FlavSpec root_needed set_expansions up)

noncomputable section

/-! ### Norms -/

/-- `norm2`: `/repo/src/base/field.hpp:790-800`, through `realPartOfScalarProdWith` -/
def norm2 (g : Geo) (sched : Nat → Nat → List Nat) (v : EvnFld) : ℝ := realPartOfScalarProd g sched v v

/-- `Field::normalize(newNorm)`: the field and what is returned.  `/repo/src/base/field.hpp:826-834` -/
def normalize (g : Geo) (sched : Nat → Nat → List Nat) (v : EvnFld) (newNorm : ℝ) : EvnFld × ℝ :=
  let f := newNorm / Real.sqrt (norm2 g sched v)
  (fun rk e c => v rk e c * f, 1 / f)

/-- `Field::normalize(oth,newNorm)`: the square root is taken twice.  `/repo/src/base/field.hpp:836-859` -/
def normalizeFrom (g : Geo) (sched : Nat → Nat → List Nat) (oth : EvnFld) (newNorm : ℝ) : EvnFld × ℝ :=
  let oldNorm2 := Real.sqrt (norm2 g sched oth)
  let fact := newNorm / Real.sqrt oldNorm2
  (fun rk e c => oth rk e c * fact, 1 / fact)

/-! ### The largest eigenvalue -/

/-- the `do … while` of `max_eigenval`: `iter` iterations done, `eig_max` the last estimate, `inp` the vector; the first argument only bounds
the recursion.  `/repo/src/hmc/multipseudo/set_expansions.cpp:58-90` -/
def powerLoop (g : Geo) (sched : Nat → Nat → List Nat) (apply : EvnFld → EvnFld) (niters : Nat) : Nat → Nat → ℝ → EvnFld → ℝ
  | 0, _, eig_max, _ => eig_max
  | left + 1, iter, eig_max, inp =>
    let out := apply inp
    let old_eig_max := eig_max
    let p := normalizeFrom g sched out 1
    open Classical in
    let is_increasing : Bool := if iter > 0 then decide (p.2 / old_eig_max - 1 > 1 / 10 ^ 14) else true
    if iter + 1 < niters ∧ is_increasing then powerLoop g sched apply niters left (iter + 1) p.2 p.1 else p.2

/-- A quark: degeneracy, mass, discretization, clover coefficient, background field; the noises of the pseudofermions (as many as
`npseudo_fs`) and of the search of the largest eigenvalue.  `/repo/src/hmc/quark_pars.hpp`, `/repo/src/hmc/multipseudo/multipseudo_rhmc_step.hpp:25` -/
structure Fla where
  deg : Int
  mass : ℝ
  discretiz : Discretiz
  cSW : ℝ
  u1b : Nat → Nat → Nat → Quad1
  etas : List EvnFld
  eigNoise : EvnFld

/-- `max_eigenval`: estimate, and the configuration after adding and removing the background field; not implemented for the clover quarks.
`/repo/src/hmc/multipseudo/set_expansions.cpp:23-107` -/
def max_eigenval (g : Geo) (J : Junk) (sched : Nat → Nat → List Nat) (q : Fla) (eo_conf : EoConf) (niters : Nat) : Option (ℝ × EoConf) :=
  if q.discretiz = .ROOT_STAG then
    let inp := (normalize g sched q.eigNoise 1).1
    let conf1 := add_backfield g J eo_conf q.u1b
    let eig_max := powerLoop g sched (stD2ee g J.ji J.jq J.jv conf1 (q.mass ^ 2)) niters (max niters 1) 0 0 inp
    some (eig_max * (11 / 10), rem_backfield g J conf1 q.u1b)
  else none

/-- what `set_expansions` needs of the quark.  `/repo/src/hmc/multipseudo/set_expansions.cpp:212-219` -/
def Fla.spec (q : Fla) (maxEig : ℝ) : FlavSpec := ⟨q.deg, q.mass, q.discretiz, q.etas.length, maxEig⟩

/-- the search of the largest eigenvalues of `set_expansions`, flavour after flavour; skipped when the quark is not rooted (the first operand
of the condition is a non vanishing constant); an overlap quark crashes.  `/repo/src/hmc/multipseudo/set_expansions.cpp:210-240` -/
def maxEigs (g : Geo) (J : Junk) (sched : Nat → Nat → List Nat) (qs : List Fla) (conf : EoConf) : Option (List FlavSpec × EoConf) :=
  qs.foldlM (fun (s : List FlavSpec × EoConf) q =>
    if q.discretiz = .OVERLAP then none else
    if Discretiz.ROOT_TM_CLOV.toInt ≠ 0 ∧ ¬ (q.deg ≠ q.etas.length * root_needed q.discretiz) then some (s.1 ++ [q.spec 0], s.2)
    else (max_eigenval g J sched q s.2 1000).map fun t => (s.1 ++ [q.spec t.1], t.2)) ([], conf)

/-- the quark `iflav` of a list -/
def specAt (l : List FlavSpec) (iflav : Nat) : FlavSpec := l.getD iflav ⟨0, 0, .OVERLAP, 0, 0⟩

/-- `set_expansions` on the rank `rank`, starting from the approximations `rat` (the same on all ranks): see `Remez.set_expansions`.
`/repo/src/hmc/multipseudo/set_expansions.cpp:181-328` -/
def setExpansions (gen : ℝ → ℝ → ℝ → Int → Int → RatApprox) (nranks rank : Nat) (pfr mdr : ℝ) (specs : List FlavSpec) (rat : Nat → RatApprox) : Nat → RatApprox :=
  set_expansions gen nranks pfr mdr (specAt specs) specs.length rat rank

/-! ### The poles -/

/-- `shift_all_poles`: `/repo/src/new_types/rat_approx.hpp:87-91` -/
def shift_all_poles (a : RatApprox) (sh : ℝ) : RatApprox :=
  { a with poles := up a.degree (fun iterm p => Function.update p iterm (p iterm + sh)) a.poles }

/-- `shift_all_ROOT_STAG_poles`: `/repo/src/hmc/multipseudo/multipseudo_rhmc_step.cpp:34-43` -/
def shift_all_ROOT_STAG_poles (qs : List Fla) (rat : Nat → RatApprox) (sign : ℝ) : Nat → RatApprox :=
  up qs.length (fun iflav rat =>
    match qs[iflav]? with
    | some q =>
      if q.discretiz = .ROOT_STAG then
        up 3 (fun i rat => Function.update rat (iflav * 3 + i) (shift_all_poles (rat (iflav * 3 + i)) (sign * q.mass ^ 2))) rat
      else rat
    | none => rat) rat

/-- the approximation as used by the inverters: constant, poles and weights -/
def toRat (a : RatApprox) : QForce.Rat := ⟨a.cons, (List.range a.degree).map fun i => (a.poles i, a.weights i)⟩

/-! ### The pseudofermions -/

/-- `generate_root_stag_pseudo_fermion`: `/repo/src/hmc/fermions/pseudofermions_generation.cpp:46-58` -/
def generate_root_stag_pseudo_fermion (g : Geo) (J : Junk) (solve : Solver) (conf : EoConf) (u1b : Nat → Nat → Nat → Quad1) (rat : QForce.Rat) (eta : EvnFld) :
    Option (EvnFld × EoConf) :=
  let conf1 := add_backfield g J conf u1b
  (summ_src_and_all_inv solve conf1 rat eta).map fun pf => (pf, rem_backfield g J conf1 u1b)

/-- `generate_pseudo_fermion`: field, action, configuration.  `/repo/src/hmc/fermions/pseudofermions_generation.cpp:61-91` -/
def generate_pseudo_fermion (g : Geo) (J : Junk) (sched : Nat → Nat → List Nat) (solve : Solver) (conf : EoConf) (q : Fla) (rat : QForce.Rat) (eta : EvnFld) :
    Option (EvnFld × ℝ × EoConf) :=
  if q.discretiz = .ROOT_STAG then
    (generate_root_stag_pseudo_fermion g J solve conf q.u1b rat eta).map fun t => (t.1, norm2 g sched eta, t.2)
  else none

/-- loop on the pseudofermions of a flavour: fields generated, action, configuration.
`/repo/src/hmc/fermions/pseudofermions_generation.cpp:108-115` -/
def generateFlavour (g : Geo) (J : Junk) (sched : Nat → Nat → List Nat) (solve : Solver) (q : Fla) (rat : QForce.Rat) (pf_action : ℝ) (conf : EoConf) :
    Option (List EvnFld × ℝ × EoConf) :=
  q.etas.foldlM (fun (s : List EvnFld × ℝ × EoConf) eta =>
    (generate_pseudo_fermion g J sched solve s.2.2 q rat eta).map fun t => (s.1 ++ [t.1], s.2.1 + t.2.1, t.2.2)) ([], pf_action, conf)

/-- `generate_pseudofermions`; the approximation for the generation is the first of the three of each flavour.
`/repo/src/hmc/fermions/pseudofermions_generation.cpp:94-119` -/
def generate_pseudofermions (g : Geo) (J : Junk) (sched : Nat → Nat → List Nat) (solve : Solver) (conf : EoConf) (qs : List Fla) (rat : Nat → RatApprox) :
    Option (List (List EvnFld) × ℝ × EoConf) :=
  qs.zipIdx.foldlM (fun (s : List (List EvnFld) × ℝ × EoConf) qi =>
    (generateFlavour g J sched solve qi.1 (toRat (rat (3 * qi.2 + 0))) s.2.1 s.2.2).map fun t => (s.1 ++ [t.1], t.2.1, t.2.2)) ([], 0, conf)

/-- the flavours with the pseudofermions `pf`, and the approximation `which` (1 for the action, 2 for the force) of the three of each flavour.
`/repo/src/hmc/multipseudo/multipseudo_rhmc_step.hpp` (`RAT_APPR_QUARK_ACTION`, `RAT_APPR_QUARK_FORCE`), `theory_action.cpp:96`, `quark_force.cpp` -/
def flavours (qs : List Fla) (pf : List (List EvnFld)) (rat : Nat → RatApprox) (which : Nat) : List Flavour :=
  (qs.zip pf).zipIdx.map fun qi => ⟨decide (qi.1.1.discretiz = .ROOT_STAG), qi.1.1.u1b, toRat (rat (3 * qi.2 + which)), qi.1.2⟩

/-! ### The action -/

/-- What the actions need besides the fields -/
structure ActEnv where
  J : Junk
  sched : Nat → Nat → List Nat
  schedH : Nat → Nat → Nat → List Nat
  ji : Nat
  jv : Quad
  jp : ℝ × ℝ

/-- `full_theory_action`: total action, and the configuration (which `compute_quark_action` changes and restores).  The determinant of the
clover term is not implemented: it crashes if any quark has `cSW`.  `/repo/src/hmc/multipseudo/theory_action.cpp:134-188`,
`/repo/src/hmc/gauge/clover_det_action.cpp:17-30` -/
def full_theory_action (g : Geo) (A : ActEnv) (solve : Solver) (name : ActName) (beta : ℝ) (conf H : EoConf) (qs : List Fla) (fl : List Flavour) (external_quark_action : ℝ) :
    Option (ℝ × EoConf) :=
  (open Classical in if external_quark_action ≥ 0 then some (external_quark_action, conf) else compute_quark_action g A.J A.sched solve conf fl).bind fun q =>
  (gluonic_action_eo g A.ji A.jv A.jp A.sched q.2 name beta).bind fun gluon_action =>
  let mom_action := momenta_action g A.schedH H
  open Classical in
  if ∃ f ∈ qs, f.cSW ≠ 0 then none else
  some (q.1 + gluon_action + mom_action + 0 + 0, q.2)

/-! ### The step -/

/-- Parameters of the simulation -/
structure Pars where
  name : ActName
  beta : ℝ
  evol : EvolPars
  pf_action_residue : ℝ
  md_residue : ℝ

/-- What the integrator needs besides the fields -/
structure IntEnv where
  E : Nat → Nat → Env
  jq : Quad
  reuni : M3 → M3
  precision : ℝ
  niter_max : Nat

/-- The solvers used in the generation, in the action, in the force (they differ for the residue and the maximal number of iterations) -/
structure Solvers where
  gen : Solver
  act : Solver
  force : Solver

/-- `multipseudo_rhmc_step`: the difference of action, the new configuration and the approximations.  `H` are the momenta drawn by
`generate_hmc_momenta`.  `/repo/src/hmc/multipseudo/multipseudo_rhmc_step.cpp:47-138` -/
def multipseudo_rhmc_step (g : Geo) (A A' : ActEnv) (I : IntEnv) (S : Solvers) (gen : ℝ → ℝ → ℝ → Int → Int → RatApprox) (rank : Nat) (P : Pars) (qs : List Fla)
    (H in_conf : EoConf) (rat : Nat → RatApprox) : Option (ℝ × EoConf × (Nat → RatApprox)) :=
  let out_conf := in_conf
  (maxEigs g A.J A.sched qs out_conf).bind fun e =>
  let rat := setExpansions gen g.nranks rank P.pf_action_residue P.md_residue e.1 rat
  let rat := shift_all_ROOT_STAG_poles qs rat 1
  (generate_pseudofermions g A.J A.sched S.gen e.2 qs rat).bind fun p =>
  (full_theory_action g A S.act P.name P.beta p.2.2 H qs (flavours qs p.1 rat 1) p.2.1).bind fun init =>
  (Omelyan_integrator g I.E I.jq I.reuni I.precision I.niter_max (qfOf g A.J S.force (flavours qs p.1 rat 2)) false P.name P.beta P.evol (H, init.2)).bind fun s =>
  (full_theory_action g A' S.act P.name P.beta s.2 s.1 qs (flavours qs p.1 rat 1) (-1)).bind fun final =>
  let diff_action := final.1 - init.1
  let rat := shift_all_ROOT_STAG_poles qs rat (-1)
  some (diff_action, final.2, rat)

/-! ### Metropolis test -/

/-- `metro_tresh`: `/repo/src/routines/math_routines.cpp:58-60` -/
def metro_tresh (arg : ℝ) : ℝ := open Classical in if arg ≤ 0 then 1 else Real.exp (-arg)

/-- `metro_test`, for the number `toss` drawn in `[0,1)`: `/repo/src/routines/math_routines.cpp:62-69` -/
def metro_test (toss arg : ℝ) : Prop := toss < metro_tresh arg

/-- The choice of the new configuration.  `/repo/projects/generate_confs/generate.cpp:299-327` -/
def newConf (skip_mtest_ntraj itraj : Int) (toss diff : ℝ) (conf new_conf : EoConf) : EoConf :=
  open Classical in
  let perform_test := itraj ≥ skip_mtest_ntraj
  let acc := metro_test toss diff
  let acc := if ¬ perform_test then True else acc
  if acc then new_conf else conf

end

end Nissa.Rhmc
