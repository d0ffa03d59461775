import Verif.Stencil.PropsStaples2
import Verif.Smearing.PropsLinkSmear

/-! # Gauge action, gauge force, evolution of links and momenta

`/repo/src/hmc/gauge/{Wilson_action.hpp,Symanzik_action.hpp,Symanzik_action.cpp,gluonic_action.hpp,Wilson_force.cpp,Symanzik_force.cpp,gluonic_force.cpp}`,
`/repo/src/operations/su3_paths/rectangles.cpp`, `/repo/src/hmc/momenta/{momenta_action.cpp,momenta_evolve.cpp}`.

Simplifications: exact real arithmetic; loops on the sites which write only their own site are the map of their body; printings, timings
and the `DEBUG` blocks are left out; `theory_pars_t` is represented by the name of the action and `beta`, the only fields read here. -/

set_option linter.all false

namespace Nissa.GForce
open Nissa.Lx Nissa.Sten Nissa.Su3f Nissa.Gauge Nissa.Paths Nissa.LSm Nissa.Stap Matrix Complex

noncomputable section

/-- `gauge_action_name_t`.  `/repo/src/hmc/gauge/gluonic_action.hpp:12` -/
inductive ActName | unspec | wilson | tlsym | iwasaki
  deriving DecidableEq

/-- `strcasecmp(a,b)==0`: equal up to the case of the (ASCII) letters -/
def strcaseEq (a b : List Char) : Bool := a.map Char.toLower == b.map Char.toLower

/-- `gauge_action_name_from_str`, `none` when it crashes.  `/repo/src/hmc/gauge/gluonic_action.hpp:15-31` -/
def gauge_action_name_from_str (name : List Char) : Option ActName :=
  let known : List (ActName × List Char) :=
    [(.wilson, ['W', 'i', 'l', 's', 'o', 'n']), (.tlsym, ['t', 'l', 'S', 'y', 'm']), (.iwasaki, ['I', 'w', 'a', 's', 'a', 'k', 'i'])]
  (known.find? (fun k => strcaseEq name k.2)).map (·.1)

/-- `gauge_action_str_from_name`.  `/repo/src/hmc/gauge/gluonic_action.hpp:34-54` -/
def gauge_action_str_from_name : ActName → List Char
  | .wilson => ['W', 'i', 'l', 's', 'o', 'n']
  | .tlsym => ['t', 'l', 'S', 'y', 'm']
  | .iwasaki => ['I', 'w', 'a', 's', 'a', 'k', 'i']
  | .unspec => ['U', 'n', 'k', 'n', 'o', 'w', 'n']

/-- `/repo/src/hmc/gauge/Symanzik_action.hpp:11` -/
def C1_TLSYM : ℝ := -1.0 / 12
/-- `/repo/src/hmc/gauge/Symanzik_action.hpp:12` -/
def C1_IWASAKI : ℝ := -0.331
/-- `/repo/src/hmc/gauge/Symanzik_action.hpp:15-18` -/
def get_C0 (C1 : ℝ) : ℝ := 1 - 8 * C1

/-! ### Actions -/

/-- `Wilson_action(plaq,beta)`.  `/repo/src/hmc/gauge/Wilson_action.hpp:14-20` -/
def Wilson_action (g : Geo) (plaq beta : ℝ) : ℝ := beta * 6 * (1 - plaq) * g.glbVol

/-- `Wilson_action` of a full field.  `/repo/src/hmc/gauge/Wilson_action.hpp:23-27` -/
def Wilson_action_lx (g : Geo) (ji : Nat) (jq : Quad) (sched : Nat → Nat → List Nat) (conf : Nat → Nat → Quad) (beta : ℝ) : ℝ :=
  Wilson_action g (average_plaquette_lx_conf g ji jq sched conf) beta

/-- `Wilson_action` of an even/odd field; the average plaquette of an even/odd field is half the sum of the two components.
`/repo/src/hmc/gauge/Wilson_action.hpp:29-34`, `/repo/src/operations/su3_paths/plaquette.hpp:148-156` -/
def Wilson_action_eo (g : Geo) (ji : Nat) (jq : Quad) (jp : ℝ × ℝ) (sched : Nat → Nat → List Nat) (conf : Nat → Nat → Nat → Quad) (beta : ℝ) : ℝ :=
  let plaq := global_plaquette_eo_conf g ji jq jp sched conf
  Wilson_action g ((plaq.1 + plaq.2) / 2) beta

/-- The ordered pairs `mu`, `nu≠mu` in the order of the loops.  `/repo/src/operations/su3_paths/rectangles.cpp:91-93` -/
def dirPairs : List (Dir × Dir) := dirs.flatMap (fun mu => (dirs.filter (fun nu => nu ≠ mu)).map (fun nu => (mu, nu)))

/-- Body of the loop of `point_plaquette_and_rectangles_lx_conf`.  `/repo/src/operations/su3_paths/rectangles.cpp:100-120` -/
def shapesStep (up dw : Nat → Dir → Nat) (conf : Nat → Quad) (A : Nat) (shapes : ℝ × ℝ) (mn : Dir × Dir) : ℝ × ℝ :=
  let mu := mn.1
  let nu := mn.2
  let B := up A nu
  let D := dw A nu
  let E := up D mu
  let F := up A mu
  let ABC := conf A nu * conf B mu
  let ABCF := ABC * (conf F nu)ᴴ
  let re := if mu < nu then shapes.1 + reTrProdDag ABCF (conf A mu) else shapes.1
  let ADE := (conf D nu)ᴴ * conf D mu
  let ADEF := ADE * conf E nu
  (re, shapes.2 + reTrProdDag ABCF ADEF)

/-- `point_plaquette_and_rectangles_lx_conf` on a site.  `/repo/src/operations/su3_paths/rectangles.cpp:84-122` -/
def point_plaquette_and_rectangles_lx_conf (up dw : Nat → Dir → Nat) (conf : Nat → Quad) (A : Nat) : ℝ × ℝ :=
  dirPairs.foldl (shapesStep up dw conf A) (0, 0)

/-- `global_plaquette_and_rectangles_lx_conf`.  `/repo/src/operations/su3_paths/rectangles.cpp:125-139` -/
def global_plaquette_and_rectangles_lx_conf (g : Geo) (ji : Nat) (jq : Quad) (sched : Nat → Nat → List Nat) (conf : Nat → Nat → Quad) : ℝ × ℝ :=
  let coll := ∑ rk ∈ Finset.range g.nranks, Reduce.reduceNoPreserve (· + ·) (sched rk) g.locVol
    (fun A => let r := coordOfLx rk g.R; point_plaquette_and_rectangles_lx_conf (upT g r ji) (dwT g r ji) (mem g jq conf r) A)
  (coll.1 / (18 * g.glbVol), coll.2 / (36 * g.glbVol))

/-- Body of the loop on the sites of an even/odd field.  `/repo/src/operations/su3_paths/rectangles.cpp:39-71` -/
def shapesStepEo (up dw : Nat → Nat → Dir → Nat) (conf : Nat → Nat → Quad) (par A : Nat) (shapes : ℝ × ℝ) (mn : Dir × Dir) : ℝ × ℝ :=
  let mu := mn.1
  let nu := mn.2
  let B := up par A nu
  let D := dw par A nu
  let E := up (1 - par) D mu
  let F := up par A mu
  let ABC := conf par A nu * conf (1 - par) B mu
  let ABCF := ABC * (conf (1 - par) F nu)ᴴ
  let re := if mu < nu then shapes.1 + reTrProdDag ABCF (conf par A mu) else shapes.1
  let ADE := (conf (1 - par) D nu)ᴴ * conf (1 - par) D mu
  let ADEF := ADE * conf par E nu
  (re, shapes.2 + reTrProdDag ABCF ADEF)

/-- The full field of the shapes, filled looping on the even and odd sites; each site is written by its own iteration, starting from zero.
`/repo/src/operations/su3_paths/rectangles.cpp:23-72` -/
def pointShapesEoField (g : Geo) (ji : Nat) (jq : Quad) (conf : Nat → Nat → Nat → Quad) (r : Coords) : Nat → Option (ℝ × ℝ) :=
  writeLoop (fun pe : Nat × Nat => loclxOfLoceo g r pe.1 pe.2)
    (fun pe => dirPairs.foldl (shapesStepEo (eupT g r ji) (edwT g r ji) (eoMem g jq conf r) pe.1 pe.2) (0, 0))
    ([0, 1].flatMap (fun p => (List.range (g.locVol / 2)).map (fun e => (p, e)))) (fun _ => none)

/-- `global_plaquette_and_rectangles_eo_conf`.  `/repo/src/operations/su3_paths/rectangles.cpp:17-81` -/
def global_plaquette_and_rectangles_eo_conf (g : Geo) (ji : Nat) (jq : Quad) (jp : ℝ × ℝ) (sched : Nat → Nat → List Nat)
    (conf : Nat → Nat → Nat → Quad) : ℝ × ℝ :=
  let coll := ∑ rk ∈ Finset.range g.nranks, Reduce.reduceNoPreserve (· + ·) (sched rk) g.locVol
    (fun ivol => (pointShapesEoField g ji jq conf (coordOfLx rk g.R) ivol).getD jp)
  (coll.1 / (18 * g.glbVol), coll.2 / (36 * g.glbVol))

/-- `Symanzik_action(glb_shapes,beta,C1)`.  `/repo/src/hmc/gauge/Symanzik_action.cpp:15-22` -/
def Symanzik_action (g : Geo) (shapes : ℝ × ℝ) (beta C1 : ℝ) : ℝ :=
  (get_C0 C1 * 6 * g.glbVol * (1 - shapes.1) + C1 * 12 * g.glbVol * (1 - shapes.2)) * beta

/-- `gluonic_action` of a full field, `none` when it crashes.  `/repo/src/hmc/gauge/gluonic_action.hpp:56-79`,
`/repo/src/hmc/gauge/Symanzik_action.cpp:25-34`, `/repo/src/hmc/gauge/Symanzik_action.hpp:28-40` -/
def gluonic_action_lx (g : Geo) (ji : Nat) (jq : Quad) (sched : Nat → Nat → List Nat) (conf : Nat → Nat → Quad) (name : ActName) (beta : ℝ) : Option ℝ :=
  match name with
  | .wilson => some (Wilson_action_lx g ji jq sched conf beta)
  | .tlsym => some (Symanzik_action g (global_plaquette_and_rectangles_lx_conf g ji jq sched conf) beta C1_TLSYM)
  | .iwasaki => some (Symanzik_action g (global_plaquette_and_rectangles_lx_conf g ji jq sched conf) beta C1_IWASAKI)
  | .unspec => none

/-- `gluonic_action` of an even/odd field.  `/repo/src/hmc/gauge/gluonic_action.hpp:56-79`, `/repo/src/hmc/gauge/Symanzik_action.cpp:37-45` -/
def gluonic_action_eo (g : Geo) (ji : Nat) (jq : Quad) (jp : ℝ × ℝ) (sched : Nat → Nat → List Nat) (conf : Nat → Nat → Nat → Quad) (name : ActName)
    (beta : ℝ) : Option ℝ :=
  match name with
  | .wilson => some (Wilson_action_eo g ji jq jp sched conf beta)
  | .tlsym => some (Symanzik_action g (global_plaquette_and_rectangles_eo_conf g ji jq jp sched conf) beta C1_TLSYM)
  | .iwasaki => some (Symanzik_action g (global_plaquette_and_rectangles_eo_conf g ji jq jp sched conf) beta C1_IWASAKI)
  | .unspec => none

/-! ### Forces -/

/-- `safe_su3_hermitian_prod_double`, the result when in and out may coincide (C31).  `/repo/src/new_types/su3_op.hpp:1157-1176` -/
def su3_hermitian_prod_double (b : M3) (r : ℝ) : M3 := fun ic jc => ⟨r * (b jc ic).re, -r * (b jc ic).im⟩

/-- `su3_summ_the_hermitian_prod_double`.  `/repo/src/new_types/su3_op.hpp:1181-1191` -/
def su3_summ_the_hermitian_prod_double (a b : M3) (r : ℝ) : M3 := fun ic jc =>
  ⟨(a ic jc).re + r * (b jc ic).re, (a ic jc).im + -r * (b jc ic).im⟩

/-- What the computation of the staples can meet: the default index, the order of the loops on the sites in the two calls, the
content of halos, buffers and outputs before the calls -/
structure Env where
  ji : Nat
  sched : Nat → Dir → Fin 3 → List Nat → List Nat
  sched' : Nat → Dir → Fin 3 → List Nat → List Nat
  jc : Coords → Nat → Quad
  jb : Coords → Nat → Quad
  jb1 : Coords → Nat × Dir → M3
  jb2 : Coords → Nat × Dir → M3
  jb3 : Coords → Nat × Dir → M3
  jq : Quad
  jq' : Quad
  out0 : Coords → Stap
  out0' : Coords → Stap

/-- the orders of visit are permutations of the sites to be visited -/
structure Env.Ok (E : Env) : Prop where
  s : SchedOk E.sched
  s' : SchedOk E.sched'

/-- The squared staples of all the ranks -/
def Env.sq (E : Env) (g : Geo) (U : Nat → Nat → Quad) : Coords → Stap :=
  compute_squared_staples_lx_conf g E.ji E.sched E.jc E.jb E.jb1 E.jq U E.out0

/-- The rectangular staples, computed after the squared ones -/
def Env.rect (E : Env) (g : Geo) (U : Nat → Nat → Quad) : Coords → Stap :=
  compute_rectangular_staples_lx_conf g E.ji E.sched' (confMem1 g E.ji U E.jc E.jb E.jq) (E.sq g U) E.jb2 E.jb3 E.jq' E.out0'

/-- `Wilson_force_lx_conf`.  `/repo/src/hmc/gauge/Wilson_force.cpp:40-60` -/
def Wilson_force_lx_conf (g : Geo) (E : Env) (conf : Nat → Nat → Quad) (beta : ℝ) : Nat → Nat → Quad := fun rk ivol mu =>
  let r := -beta / 3
  su3_hermitian_prod_double (summed (E.sq g conf (coordOfLx rk g.R)) ivol mu) r

/-- `Symanzik_force_lx_conf`.  `/repo/src/hmc/gauge/Symanzik_force.cpp:17-56` -/
def Symanzik_force_lx_conf (g : Geo) (E : Env) (conf : Nat → Nat → Quad) (beta C1 : ℝ) : Nat → Nat → Quad := fun rk ivol mu =>
  let C0 := get_C0 C1
  let w1 := -C1 * beta / 3
  let w0 := -C0 * beta / 3
  let out := su3_hermitian_prod_double (summed (E.sq g conf (coordOfLx rk g.R)) ivol mu) w0
  let temp := summed (E.rect g conf (coordOfLx rk g.R)) ivol mu
  su3_summ_the_hermitian_prod_double out temp w1

/-- `compute_gluonic_force_lx_conf_do_not_finish`, `none` when it crashes.  `/repo/src/hmc/gauge/gluonic_force.cpp:44-61` -/
def compute_gluonic_force_lx_conf_do_not_finish (g : Geo) (E : Env) (conf : Nat → Nat → Quad) (name : ActName) (beta : ℝ) : Option (Nat → Nat → Quad) :=
  match name with
  | .wilson => some (Wilson_force_lx_conf g E conf beta)
  | .tlsym => some (Symanzik_force_lx_conf g E conf beta C1_TLSYM)
  | .iwasaki => some (Symanzik_force_lx_conf g E conf beta C1_IWASAKI)
  | .unspec => none

/-- `gluonic_force_finish_computation`; the output is overwritten element by element starting from its previous content.
`/repo/src/hmc/gauge/gluonic_force.cpp:24-41` -/
def gluonic_force_finish_computation (F conf : Nat → Nat → Quad) : Nat → Nat → Quad := fun rk ivol mu =>
  let temp := conf rk ivol mu * F rk ivol mu
  su3_traceless_anti_hermitian_part temp (F rk ivol mu)

/-- `compute_gluonic_force_lx_conf`.  `/repo/src/hmc/gauge/gluonic_force.cpp:64-147` -/
def compute_gluonic_force_lx_conf (g : Geo) (E : Env) (conf : Nat → Nat → Quad) (name : ActName) (beta : ℝ) : Option (Nat → Nat → Quad) :=
  (compute_gluonic_force_lx_conf_do_not_finish g E conf name beta).map fun F => gluonic_force_finish_computation F conf

/-! ### Momenta -/

/-- `evolve_lx_momenta_with_force`.  `/repo/src/hmc/momenta/momenta_evolve.cpp:15-35`, `/repo/src/new_types/complex.hpp:316-324` -/
def evolve_lx_momenta_with_force (H F : Nat → Nat → Quad) (dt : ℝ) : Nat → Nat → Quad := fun rk ivol mu ic1 ic2 =>
  let b := F rk ivol mu ic1 ic2
  let a := H rk ivol mu ic1 ic2
  let t := b.im * dt
  ⟨a.re + t, a.im - b.re * dt⟩

/-- `evolve_lx_conf_with_momenta`.  `/repo/src/hmc/momenta/momenta_evolve.cpp:38-70` -/
def evolve_lx_conf_with_momenta (conf H : Nat → Nat → Quad) (dt : ℝ) : Nat → Nat → Quad := fun rk ivol mu =>
  let t1 : M3 := fun i j => ⟨(H rk ivol mu i j).re * dt, (H rk ivol mu i j).im * dt⟩
  let t2 := hermitian_exact_i_exponentiate t1
  t2 * conf rk ivol mu

/-- `norm2` of the even or odd part of a field of momenta: square of each real number, reduced on sites and ranks.
`/repo/src/base/field.hpp:316-368` -/
def eoNorm2 (g : Geo) (sched : Nat → Nat → List Nat) (H : Nat → Nat → Quad) : ℝ :=
  ∑ rk ∈ Finset.range g.nranks, Reduce.reduceNoPreserve (· + ·) (sched rk) (g.locVol / 2) (fun site =>
    ∑ mu, ∑ ic1, ∑ ic2, ((H rk site mu ic1 ic2).re * (H rk site mu ic1 ic2).re + (H rk site mu ic1 ic2).im * (H rk site mu ic1 ic2).im))

/-- `momenta_action`.  `/repo/src/hmc/momenta/momenta_action.cpp:11-19` -/
def momenta_action (g : Geo) (sched : Nat → Nat → Nat → List Nat) (H : Nat → Nat → Nat → Quad) : ℝ :=
  let action := [0, 1].foldl (fun action eo => action + eoNorm2 g (sched eo) (fun rk e => H rk eo e)) 0
  action / 2

/-- `evolve_momenta_with_pure_gauge_force`.  `/repo/src/hmc/gauge/pure_gauge_Omelyan_integrator.cpp:35-47` -/
def evolve_momenta_with_pure_gauge_force (g : Geo) (E : Env) (H conf : Nat → Nat → Quad) (name : ActName) (beta dt : ℝ) : Option (Nat → Nat → Quad) :=
  (compute_gluonic_force_lx_conf g E conf name beta).map fun F => evolve_lx_momenta_with_force H F dt

end

end Nissa.GForce
