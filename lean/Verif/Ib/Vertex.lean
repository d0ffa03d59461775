import Verif.Ib.PropsContr6

/-! # Photon vertices and covariant derivatives

Models `/repo/src/operations/covariant_derivative.cpp` (shifts, derivative, Laplace operators, insertion of the vertices), the version with a function in place of the current
(`/repo/src/operations/covariant_derivative.hpp:178-265`), and of `/repo/projects/ib`: the insertion on the local current (`prop.cpp:112-174`), the inclusion of the photon in the configuration
(`prop.cpp:10-38`), and the configuration kept for the next inversion (`conf.cpp:100-167`).  Exact arithmetic; only the instances with `spincolor` fields.  `ji`, `jq`, `jv`, `j1`, `jc` are the
contents of memory never written. -/

set_option linter.all false

namespace Nissa.Vertex
open Nissa.Lx Nissa.Sten Nissa.Su3f Nissa.Gauge Nissa.Gamma Nissa.StD Nissa.Wilson Nissa.Contr Matrix Complex
open Nissa.Clv (As2t)

noncomputable section

/-- a `spin1field` at a site -/
abbrev S1 := Dir → ℂ

abbrev Fld := Nat → Nat → SpCol

/-- `t==-1 or glbCoordOfLoclx[ivol][0]==t` -/
def onTime (g : Geo) (jc : Coords) (rc : Coords) (ivol : Nat) (t : Int) : Bool := decide (t = -1 ∨ ((((glbCoordOfLoclx g rc ivol).getD jc) 0 : Nat) : Int) = t)

/-- `cshift_bw`, the output before it being `out`.  `/repo/src/operations/covariant_derivative.cpp:55-74` -/
def cshift_bw (g : Geo) (ji : Nat) (jq : Quad) (jv : SpCol) (conf : Nat → Nat → Quad) (mu : Dir) (inp out : Fld) (reset_first : Bool) : Fld := fun rk ivol =>
  let rc := coordOfLx rk g.R
  let o := if reset_first then 0 else out rk ivol
  fun id => o id + mem g jq conf rc ivol mu *ᵥ mem g jv inp rc (upT g rc ji ivol mu) id

/-- `cshift_fw`.  `/repo/src/operations/covariant_derivative.cpp:77-96` -/
def cshift_fw (g : Geo) (ji : Nat) (jq : Quad) (jv : SpCol) (conf : Nat → Nat → Quad) (mu : Dir) (inp out : Fld) (reset_first : Bool) : Fld := fun rk ivol =>
  let rc := coordOfLx rk g.R
  let o := if reset_first then 0 else out rk ivol
  fun id => o id + (mem g jq conf rc (dwT g rc ji ivol mu) mu)ᴴ *ᵥ mem g jv inp rc (dwT g rc ji ivol mu) id

/-- `Laplace_operator_2_links`.  `/repo/src/operations/covariant_derivative.cpp:99-130` -/
def Laplace_operator_2_links (g : Geo) (ji : Nat) (jq : Quad) (jv : SpCol) (conf : Nat → Nat → Quad) (ds : Dir → Bool) (inp : Fld) : Fld :=
  let s := (List.finRange 4).foldl (fun (s : Fld × Nat) (mu : Dir) =>
    if ds mu then
      let temp := cshift_bw g ji jq jv conf mu inp (fun _ _ => jv) true
      let out := cshift_bw g ji jq jv conf mu temp s.1 false
      let temp := cshift_fw g ji jq jv conf mu inp temp true
      let out := cshift_fw g ji jq jv conf mu temp out false
      (out, s.2 + 1)
    else s) (fun _ _ => 0, 0)
  fun rk ivol id c => s.1 rk ivol id c * 0.25 - s.2 * inp rk ivol id c / 2

/-- `Laplace_operator`.  `/repo/src/operations/covariant_derivative.cpp:133-158` -/
def Laplace_operator (g : Geo) (ji : Nat) (jq : Quad) (jv : SpCol) (conf : Nat → Nat → Quad) (ds : Dir → Bool) (inp : Fld) : Fld :=
  let s := (List.finRange 4).foldl (fun (s : Fld × Nat) (mu : Dir) =>
    if ds mu then
      let out := cshift_bw g ji jq jv conf mu inp s.1 false
      let out := cshift_fw g ji jq jv conf mu inp out false
      (out, s.2 + 1)
    else s) (fun _ _ => 0, 0)
  fun rk ivol id c => s.1 rk ivol id c - 2 * s.2 * inp rk ivol id c

/-- `apply_nabla_i`.  `/repo/src/operations/covariant_derivative.cpp:160-191` -/
def apply_nabla_i (g : Geo) (ji : Nat) (jq : Quad) (jv : SpCol) (jc : Coords) (conf : Nat → Nat → Quad) (mu : Dir) (t : Int) (inp : Fld) : Fld := fun rk ivol =>
  let rc := coordOfLx rk g.R
  if onTime g jc rc ivol t then
    fun id => mem g jq conf rc ivol mu *ᵥ mem g jv inp rc (upT g rc ji ivol mu) id - (mem g jq conf rc (dwT g rc ji ivol mu) mu)ᴴ *ᵥ mem g jv inp rc (dwT g rc ji ivol mu) id
  else 0

/-- body of the loop on the directions in `insert_vector_vertex`: transported fields, current at the site and at the backward neighbour.
`/repo/src/operations/covariant_derivative.cpp:226-265`, `covariant_derivative.hpp:203-232` -/
def vertexDir (GAMMA : DiracMatr ℂ) (fact_fw fact_bw : ℂ) (here dw : M3) (up dn : SpCol) (fw_curr bw_curr : ℂ) (mu : Dir) (out : SpCol) : SpCol :=
  let fw : SpCol := fun id => here *ᵥ up id
  let bw : SpCol := fun id => dwᴴ *ᵥ dn id
  let fw := fact_fw • fw
  let bw := fact_bw • bw
  let fw := fw_curr • fw
  let bw := bw_curr • bw
  let bw_M_fw := bw - fw
  let bw_P_fw := bw + fw
  let out := out + diracSpinColor GAMMA bw_P_fw
  out + diracSpinColor (baseGamma (iGammaOfMu mu)) bw_M_fw

/-- `insert_vector_vertex`: `curr` gives the current from the rank, the index (also of the halo), the direction and the sign of the transport (of which the version with a field makes no use).
`/repo/src/operations/covariant_derivative.cpp:195-267` -/
def insert_vector_vertex (g : Geo) (ji : Nat) (jq : Quad) (jv : SpCol) (jc : Coords) (conf : Nat → Nat → Quad) (inp : Fld) (fact_fw fact_bw : ℂ) (GAMMA : DiracMatr ℂ)
    (curr : Coords → Nat → Dir → Bool → ℂ) (t : Int) : Fld := fun rk ivol =>
  let rc := coordOfLx rk g.R
  if onTime g jc rc ivol t then
    (List.finRange 4).foldl (fun out mu =>
      let ifw := upT g rc ji ivol mu
      let ibw := dwT g rc ji ivol mu
      vertexDir GAMMA fact_fw fact_bw (mem g jq conf rc ivol mu) (mem g jq conf rc ibw mu) (mem g jv inp rc ifw) (mem g jv inp rc ibw) (curr rc ivol mu true) (curr rc ibw mu false) mu out) 0
  else 0

/-- the matrix of the Wilson term: `base_gamma[0]`, or `DEF_TM_GAMMA`.  `/repo/src/operations/covariant_derivative.cpp:193,299,309,350,362` -/
def vertexGamma (twisted : Bool) (r : Fin 2) : DiracMatr ℂ := if twisted then diracProdIdouble (baseGamma 5) (-tau3 r) else baseGamma 0

/-- `insert_tadpole`.  `/repo/src/operations/covariant_derivative.cpp:270-311`, `/repo/projects/ib/prop.cpp:207-218` -/
def insert_tadpole (g : Geo) (ji : Nat) (jq : Quad) (jv : SpCol) (jc : Coords) (twisted : Bool) (r : Fin 2) (conf : Nat → Nat → Quad) (inp : Fld) (tad : Dir → ℝ) (t : Int) : Fld :=
  insert_vector_vertex g ji jq jv jc conf inp (-0.25) (-0.25) (vertexGamma twisted r) (fun _ _ mu _ => tad mu) t

/-- `insert_external_source`.  `/repo/src/operations/covariant_derivative.cpp:314-365`, `/repo/projects/ib/prop.cpp:176-190` -/
def insert_external_source (g : Geo) (ji : Nat) (jq : Quad) (jv : SpCol) (jc : Coords) (j1 : S1) (twisted : Bool) (r : Fin 2) (conf : Nat → Nat → Quad) (curr : Nat → Nat → S1) (inp : Fld)
    (ds : Dir → Bool) (t : Int) : Fld :=
  insert_vector_vertex g ji jq jv jc conf inp ⟨0, -0.5⟩ ⟨0, 0.5⟩ (vertexGamma twisted r) (fun rc i mu _ => if ds mu = false then 0 else mem g j1 curr rc i mu) t

/-- `insert_conserved_current`.  `/repo/src/operations/covariant_derivative.cpp:384-428`, `/repo/projects/ib/prop.cpp:415-424` -/
def insert_conserved_current (g : Geo) (ji : Nat) (jq : Quad) (jv : SpCol) (jc : Coords) (twisted : Bool) (r : Fin 2) (conf : Nat → Nat → Quad) (inp : Fld) (ds : Dir → Bool) (t : Int) : Fld :=
  insert_vector_vertex g ji jq jv jc conf inp (-0.5) 0.5 (vertexGamma twisted r) (fun _ _ mu _ => if ds mu then 1 else 0) t

/-- `insert_external_source` with `bwFwInsertCurr(fw,nu)`: only one of the transports.  `/repo/projects/ib/prop.cpp:193-204,817-832`, `covariant_derivative.hpp:236-265` -/
def insert_bwFw (g : Geo) (ji : Nat) (jq : Quad) (jv : SpCol) (jc : Coords) (twisted : Bool) (r : Fin 2) (conf : Nat → Nat → Quad) (inp : Fld) (FW : Bool) (nu : Dir) (t : Int) : Fld :=
  insert_vector_vertex g ji jq jv jc conf inp ⟨0, -0.5⟩ ⟨0, 0.5⟩ (vertexGamma twisted r) (fun _ _ mu plus => if decide (mu = nu) && !(xor (!plus) FW) then 1 else 0) t

/-- `insert_external_loc_source`.  `/repo/projects/ib/prop.cpp:112-143` -/
def insert_external_loc_source (g : Geo) (jc : Coords) (curr : Nat → Nat → S1) (inp : Fld) (t : Int) (ds : Dir → Bool) : Fld := fun rk ivol =>
  (List.finRange 4).foldl (fun (out : SpCol) mu =>
    if ds mu then
      if onTime g jc (coordOfLx rk g.R) ivol t then
        let temp1 := diracSpinColor (baseGamma (iGammaOfMu mu)) (inp rk ivol)
        let temp2 := curr rk ivol mu • temp1
        fun id c => summProdIdouble (out id c) (temp2 id c) 1
      else out
    else out) 0

/-- electric charge `e`.  `/repo/projects/ib/prop.cpp:13-15` -/
def eCharge : ℝ := √(4 * Real.pi * (1 / 137.04))

/-- `add_photon_field_to_conf`.  `/repo/projects/ib/prop.cpp:10-31` -/
def add_photon_field_to_conf (photon_field : Nat → Nat → S1) (charge : ℝ) (conf : Nat → Nat → Quad) : Nat → Nat → Quad := fun rk ivol mu =>
  let a := -eCharge * (photon_field rk ivol mu).re * charge / 3
  (⟨Real.cos a, Real.sin a⟩ : ℂ) • conf rk ivol mu

/-- `rem_photon_field_to_conf`.  `/repo/projects/ib/prop.cpp:34-38` -/
def rem_photon_field_to_conf (photon_field : Nat → Nat → S1) (charge : ℝ) (conf : Nat → Nat → Quad) : Nat → Nat → Quad := add_photon_field_to_conf photon_field (-charge) conf

end

/-! ### The configuration kept

State of `get_updated_conf`: `V` are the configurations, `Th` the boundary conditions, `Ch` the charges, `A` the photon fields, `P` the pointers (`glb_conf`, `ape_smeared_conf`). -/

/-- state of the program for what concerns it.  `/repo/projects/ib/conf.hpp:22-25`, `conf.cpp:107-108` -/
structure CSt (P V Ch Th A : Type) where
  /-- what is at each pointer -/
  confs : P → V
  photon : A
  inner_conf : V
  inner_conf_valid : Bool
  stored_conf : Option P
  stored_charge : Ch
  stored_theta : Th

section
variable {P V Ch Th A : Type} [DecidableEq P] [DecidableEq Ch] [DecidableEq Th]

/-- the configuration with boundary conditions and photon: `adapt` is `adapt_theta` from no condition, `addPhoton` is `add_photon_field_to_conf`, `noCharge` the charge zero -/
def fresh (adapt : Th → V → V) (addPhoton : A → Ch → V → V) (noCharge : Ch) (conf : V) (photon : A) (charge : Ch) (theta : Th) : V :=
  if charge = noCharge then adapt theta conf else addPhoton photon charge (adapt theta conf)

/-- `get_updated_conf`.  `/repo/projects/ib/conf.cpp:100-167` -/
def get_updated_conf (adapt : Th → V → V) (addPhoton : A → Ch → V → V) (noCharge : Ch) (s : CSt P V Ch Th A) (charge : Ch) (theta : Th) (in_conf : P) : CSt P V Ch Th A × V :=
  let valid := s.inner_conf_valid
  let valid := if s.stored_conf ≠ some in_conf then false else valid
  let valid := if charge ≠ s.stored_charge then false else valid
  let valid := if theta ≠ s.stored_theta then false else valid
  let inner :=
    if valid = false then
      let inner := s.confs in_conf
      let inner := adapt theta inner
      if charge ≠ noCharge then addPhoton s.photon charge inner else inner
    else s.inner_conf
  ({ s with inner_conf := inner, stored_conf := some in_conf, stored_charge := charge, stored_theta := theta, inner_conf_valid := true }, inner)

/-- what the program does between the calls: `setup_conf` changes all the configurations (`conf.cpp:60-97`), `generate_photon_stochastic_propagator` the photon (`prop.cpp:988-1042`) -/
inductive COp (P V Ch Th A : Type)
  | setup (confs : P → V)
  | newPhoton (photon : A)
  | get (charge : Ch) (theta : Th) (in_conf : P)

/-- effect on the state -/
def cstep (adapt : Th → V → V) (addPhoton : A → Ch → V → V) (noCharge : Ch) (s : CSt P V Ch Th A) : COp P V Ch Th A → CSt P V Ch Th A
  | .setup confs => { s with confs := confs, inner_conf_valid := false }
  | .newPhoton photon => { s with photon := photon, inner_conf_valid := false }
  | .get charge theta p => (get_updated_conf adapt addPhoton noCharge s charge theta p).1

end

end Nissa.Vertex
