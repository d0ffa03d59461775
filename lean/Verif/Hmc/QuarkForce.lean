import Verif.Hmc.Backfield
import Verif.Hmc.GaugeForce
import Verif.Dirac.StD
import Verif.Dirac.CgFields
import Verif.Dirac.Inverters
import Verif.Inverters.Cgm

/-! # Action and force of the rooted staggered pseudofermions

Real numbers stand for `double`.  A field of all the ranks is a function of the rank, (the parity,) and the local site.  The shifted systems
are solved by a parameter `solve`, which may crash; `cgmSolve` is the solver of the program. -/

set_option linter.all false

namespace Nissa.QForce
open Nissa.Lx Nissa.Sten Nissa.Su3f Nissa.Gauge Nissa.GForce Nissa.StD Nissa.Back Nissa.CgF Nissa.Inv Matrix Complex

noncomputable section

abbrev EvnFld := Nat → Nat → Col
abbrev EoConf := Nat → Nat → Nat → Quad

/-- The rational approximation: constant, and for each term pole and weight.  `/repo/src/new_types/rat_approx.hpp:16-45` -/
structure Rat where
  cons : ℝ
  terms : List (ℝ × ℝ)

/-- The state of the memory which the routines do not control: index for missing neighbours, values of halos never filled, coordinates for
missing sites, phases before they are computed -/
structure Junk where
  ji : Nat
  jq : Quad
  jv : Col
  jc : Coords
  jp : Dir → Int

/-- a solver of the shifted systems: configuration, poles, source; `none` is a crash -/
abbrev Solver := EoConf → List ℝ → EvnFld → Option (List EvnFld)

/-- `inv_stD2ee_m2_cgm_run_hm_up_to_comm_prec`.  `/repo/src/inverters/staggered/cgm_invert_stD2ee_m2.hpp:18-26`,
`/repo/src/inverters/staggered/cgm_invert_stD2ee_m2_portable.hpp:10-31` -/
def cgmSolve {g : Geo} (ok : g.Ok) (eo : EoOk g) (J : Junk) (async : Bool) (niter_max : Nat) (residue : ℝ) : Solver := fun conf poles pf =>
  let V := colView ok eo 0
  match Cgm.cgmInvert async (fun i : Fin poles.length => poles.get i) (fun shift v => V.toE (stD2ee g J.ji J.jq J.jv conf shift (V.fromE v))) niter_max
      (fun _ => residue) (V.toE pf) with
  | .error _ => none
  | .ok (s, _) => some (List.ofFn fun i => V.fromE (s i))

/-- `add_backfield_with_stagphases_to_conf`.  `/repo/src/hmc/backfield.hpp:122-145` (see `Back.add_or_rem_backfield_eo`) -/
def add_backfield (g : Geo) (J : Junk) (conf : EoConf) (u1b : Nat → Nat → Nat → Quad1) : EoConf := add_or_rem_backfield_eo g J.ji J.jc J.jp conf false u1b false

/-- `rem_backfield_with_stagphases_from_conf` -/
def rem_backfield (g : Geo) (J : Junk) (conf : EoConf) (u1b : Nat → Nat → Nat → Quad1) : EoConf := add_or_rem_backfield_eo g J.ji J.jc J.jp conf true u1b false

/-- `summ_src_and_all_inv_stD2ee_m2_cgm_portable`.  `/repo/src/inverters/staggered/cgm_invert_stD2ee_m2_portable.hpp:33-61` -/
def summ_src_and_all_inv (solve : Solver) (conf : EoConf) (appr : Rat) (source : EvnFld) : Option EvnFld :=
  (solve conf (appr.terms.map (·.1)) source).map fun temp =>
    let chi_e : EvnFld := fun rk e c => source rk e c * appr.cons
    (appr.terms.zip temp).foldl (fun chi_e wt => fun rk e c => chi_e rk e c + wt.1.2 * wt.2 rk e c) chi_e

/-- `realPartOfScalarProdWith` of fields on even sites.  `/repo/src/base/field.hpp:316-362` (reduction: C11) -/
def realPartOfScalarProd (g : Geo) (sched : Nat → Nat → List Nat) (a b : EvnFld) : ℝ :=
  ∑ rk ∈ Finset.range g.nranks, Reduce.reduceNoPreserve (· + ·) (sched rk) (g.locVol / 2) (fun e => ∑ c, ((a rk e c).re * (b rk e c).re + (a rk e c).im * (b rk e c).im))

/-- `compute_root_st_action`: the action and the configuration, which is passed by reference.
`/repo/src/hmc/multipseudo/theory_action.cpp:62-79` -/
def compute_root_st_action (g : Geo) (J : Junk) (sched : Nat → Nat → List Nat) (solve : Solver) (eo_conf : EoConf) (u1b : Nat → Nat → Nat → Quad1) (rat : Rat)
    (pf : EvnFld) : Option (ℝ × EoConf) :=
  let conf1 := add_backfield g J eo_conf u1b
  (summ_src_and_all_inv solve conf1 rat pf).map fun chi =>
    let conf2 := rem_backfield g J conf1 u1b
    (realPartOfScalarProd g sched chi pf, conf2)

/-- what is accumulated in the force of even and odd links for each term of the approximation.
`/repo/src/hmc/fermions/rootst_eoimpr_quark_force.cpp:58-87` -/
def forceTerm (g : Geo) (J : Junk) (u1b : Nat → Nat → Nat → Quad1) (F : EoConf) (weight : ℝ) (v_o chi_e : EvnFld) : EoConf := fun rk par ieo mu ic1 ic2 =>
  let r := coordOfLx rk g.R
  if par = 0 then
    let temp1 := hMem g J.jv v_o r 1 (eupT g r J.ji 0 ieo mu) ic1 * (starRingEnd ℂ) (chi_e rk ieo ic2)
    let temp2 := temp1 * u1b rk 0 ieo mu
    F rk 0 ieo mu ic1 ic2 + temp2 * ((weight * (getStagphaseOfLxDir (eoCoord g J.ji J.jc rk 0 ieo) mu : ℝ) : ℝ) : ℂ)
  else
    let temp1 := hMem g J.jv chi_e r 0 (eupT g r J.ji 1 ieo mu) ic1 * (starRingEnd ℂ) (v_o rk ieo ic2)
    let temp2 := temp1 * u1b rk 1 ieo mu
    F rk 1 ieo mu ic1 ic2 - temp2 * ((weight * (getStagphaseOfLxDir (eoCoord g J.ji J.jc rk 1 ieo) mu : ℝ) : ℝ) : ℂ)

/-- `summ_the_rootst_eoimpr_quark_force`: the force and the configuration, which is passed by reference.
`/repo/src/hmc/fermions/rootst_eoimpr_quark_force.cpp:17-90` -/
def summ_the_rootst_eoimpr_quark_force (g : Geo) (J : Junk) (solve : Solver) (F eo_conf : EoConf) (pf : EvnFld) (u1b : Nat → Nat → Nat → Quad1) (appr : Rat) :
    Option (EoConf × EoConf) :=
  let conf1 := add_backfield g J eo_conf u1b
  (solve conf1 (appr.terms.map (·.1)) pf).map fun chi_e =>
    let v_o := chi_e.map fun chi => apply_stDoe g J.ji J.jq J.jv conf1 chi
    let conf2 := rem_backfield g J conf1 u1b
    let F := ((appr.terms.map (·.2)).zip (v_o.zip chi_e)).foldl (fun F t => forceTerm g J u1b F t.1 t.2.1 t.2.2) F
    (F, conf2)

/-- A flavour: is it a rooted staggered one, background field, approximation, pseudofermions -/
structure Flavour where
  rootStag : Bool
  u1b : Nat → Nat → Nat → Quad1
  appr : Rat
  pf : List EvnFld

/-- `compute_quark_action`: the loops on flavours and pseudofermions; the other discretizations crash.
`/repo/src/hmc/multipseudo/theory_action.cpp:82-131` -/
def compute_quark_action (g : Geo) (J : Junk) (sched : Nat → Nat → List Nat) (solve : Solver) (eo_conf : EoConf) (fl : List Flavour) : Option (ℝ × EoConf) :=
  fl.foldlM (fun (s : ℝ × EoConf) f => f.pf.foldlM (fun (s : ℝ × EoConf) p =>
    if f.rootStag then (compute_root_st_action g J sched solve s.2 f.u1b f.appr p).map fun t => (s.1 + t.1, t.2) else none) s) (0, eo_conf)

/-- `compute_quark_force_no_stout_remapping`, when no flavour has a clover term.  `/repo/src/hmc/multipseudo/quark_force.cpp:42-110` -/
def compute_quark_force_no_stout_remapping (g : Geo) (J : Junk) (solve : Solver) (eo_conf : EoConf) (fl : List Flavour) : Option (EoConf × EoConf) :=
  fl.foldlM (fun (s : EoConf × EoConf) f => f.pf.foldlM (fun (s : EoConf × EoConf) p =>
    if f.rootStag then summ_the_rootst_eoimpr_quark_force g J solve s.1 s.2 p f.u1b f.appr else none) s) (fun _ _ _ _ => 0, eo_conf)

/-- `compute_quark_force_finish_computation`.  `/repo/src/hmc/multipseudo/quark_force.cpp:20-39` -/
def compute_quark_force_finish_computation (F conf : EoConf) : EoConf := fun rk eo ivol mu =>
  let temp := conf rk eo ivol mu * F rk eo ivol mu
  su3_traceless_anti_hermitian_part temp (F rk eo ivol mu)

/-- `compute_quark_force` when the links are not smeared: the force and the configuration.  `/repo/src/hmc/multipseudo/quark_force.cpp:113-150` -/
def compute_quark_force (g : Geo) (J : Junk) (solve : Solver) (conf : EoConf) (fl : List Flavour) : Option (EoConf × EoConf) :=
  (compute_quark_force_no_stout_remapping g J solve conf fl).map fun s => (compute_quark_force_finish_computation s.1 s.2, s.2)

end

end Nissa.QForce
