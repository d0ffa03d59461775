import Verif.Ib.PropsVertex1
import Verif.Random.PropsSitmo

/-! # Sources and local insertions of the ib program

Models the generation of the sources (`/repo/projects/ib/hit.hpp:206-325`), of the position of the source of a hit (`hit.hpp:430-463`), and the insertions of
`/repo/projects/ib/prop.cpp` which act site by site.  Exact arithmetic.  `jc`, `ji` are the content of memory never written.  Not modelled here: reading and writing of
the sources on disk (C73), the drawer got when the source is skipped (C65). -/

set_option linter.all false

namespace Nissa.Src
open Nissa.Lx Nissa.Sten Nissa.Su3f Nissa.Gauge Nissa.Gamma Nissa.StD Nissa.Wilson Nissa.Contr Nissa.Vertex Nissa.Sitmo Matrix Complex

noncomputable section

/-- `rnd_t`.  `/repo/src/base/random.hpp:30` -/
inductive Rnd | allPlusOne | allMinusOne | unif | z2 | z3 | z4 | gauss
deriving DecidableEq

/-- the flags of the run: `stoch_source`, `diluted_spi_source`, `diluted_col_source`.  `/repo/projects/ib/pars.hpp:56,320` -/
structure Pars where
  stoch : Bool
  dilSpi : Bool
  dilCol : Bool

/-- `nso_spi`.  `/repo/projects/ib/pars.hpp:215-220` -/
def Pars.nsoSpi (P : Pars) : Nat := if P.dilSpi then 4 else 1
/-- `nso_col`.  `/repo/projects/ib/pars.hpp:223-228` -/
def Pars.nsoCol (P : Pars) : Nat := if P.dilCol then 3 else 1

/-- `rel_coord_of_glb_coord`.  `/repo/projects/ib/pars.hpp:59-60` -/
def rel_coord_of_glb_coord (g : Geo) (oriCoords : Coords) (c : Nat) (mu : Dir) : Int := Int.tmod ((g.L mu : Int) + c - oriCoords mu) (g.L mu)

/-- `rel_coord_of_loclx`.  `/repo/projects/ib/pars.hpp:63-64` -/
def rel_coord_of_loclx (g : Geo) (jc oriCoords : Coords) (rk ivol : Nat) (mu : Dir) : Int :=
  rel_coord_of_glb_coord g oriCoords (((glbCoordOfLoclx g (coordOfLx rk g.R) ivol).getD jc) mu) mu

/-- the `switch` on the type of noise, with `z2Transform` and `z4Transform`; `none` is the crash.  `/repo/projects/ib/hit.hpp:244-268`, `/repo/src/base/sitmo.hpp:536-553` -/
def noiseOf (t : Rnd) (bi : ℚ × ℚ) : Option ℂ :=
  match t with
  | .allPlusOne => some 1
  | .allMinusOne => some (-1)
  | .z2 => some ⟨(sign bi.1 : ℝ), 0⟩
  | .z4 => some ⟨(sign bi.1 : ℝ) * (1 / √2), (sign bi.2 : ℝ) * (1 / √2)⟩
  | .unif => none
  | .z3 => none
  | .gauss => none

/-- the value written at a site in the first source: `draw` gives, for a global site, the reals of the drawer (`fillLocSite`).  `none` is the crash.
`/repo/projects/ib/hit.hpp:222-285` -/
def siteSource (P : Pars) (g : Geo) (jc : Coords) (ji : Nat) (oriCoords : Coords) (tins : Int) (nt : Rnd) (draw : Nat → Nat → ℚ) (rk ivol : Nat) : Option SpCol :=
  if P.stoch then
    if tins = -1 ∨ rel_coord_of_loclx g jc oriCoords rk ivol 0 = tins then
      let drawn := draw ((glblxOfLoclx g (coordOfLx rk g.R) ivol).getD ji)
      ((List.finRange 4).take (if P.dilSpi then 1 else 4)).foldlM (fun (b : SpCol) (id : Fin 4) =>
        ((List.finRange 3).take (if P.dilCol then 1 else 3)).foldlM (fun (b : SpCol) (ic : Fin 3) => do
          let bi ← noiseOf nt (drawn ((id.val * 3 + ic.val) * 2), drawn ((id.val * 3 + ic.val) * 2 + 1))
          pure (Function.update b id (Function.update (b id) ic bi))) b) 0
    else some 0
  else
    let is_ori := (List.finRange 4).foldl (fun (o : Bool) mu => o && decide (rel_coord_of_loclx g jc oriCoords rk ivol mu = 0)) true
    some (if is_ori then Function.update 0 0 (Function.update 0 0 1) else 0)

/-- the loop on the spin and colour of a diluted source.  `/repo/projects/ib/hit.hpp:304-312` -/
def diluteSite (P : Pars) (sp_so co_so : Nat) (s : SpCol) : SpCol := fun sp_si co_si =>
  if (sp_si.val = sp_so ∨ ¬ P.dilSpi) ∧ (co_si.val = co_so ∨ ¬ P.dilCol) then s (if P.dilSpi then 0 else sp_si) (if P.dilCol then 0 else co_si) else 0

/-- `norm2` of a field.  `/repo/src/base/field.hpp:320-368,858-899` -/
def norm2 (g : Geo) (sched : Nat → Nat → List Nat) (s : Fld) : ℝ :=
  ∑ rk ∈ Finset.range g.nranks, Reduce.reduceNoPreserve (· + ·) (sched rk) g.locVol (fun site => ∑ id, ∑ ic, ((s rk site id ic).re * (s rk site id ic).re + (s rk site id ic).im * (s rk site id ic).im))

/-- `generate_original_source`: the sources and `ori_source_norm2`; `none` is the crash.  `/repo/projects/ib/hit.hpp:206-325` -/
def generate_original_source (P : Pars) (g : Geo) (jc : Coords) (ji : Nat) (sched : Nat → Nat → List Nat) (oriCoords : Coords) (tins : Int) (nt : Rnd) (draw : Nat → Nat → ℚ) :
    Option (QProp × ℝ) :=
  if ¬ P.stoch ∧ (¬ P.dilSpi ∨ ¬ P.dilCol) then none
  else if ∀ rk < g.nranks, ∀ ivol < g.locVol, (siteSource P g jc ji oriCoords tins nt draw rk ivol).isSome then
    let sp : QProp := fun i rk ivol =>
      let s := (siteSource P g jc ji oriCoords tins nt draw rk ivol).getD 0
      if i = 0 then s else diluteSite P (i / P.nsoCol) (i % P.nsoCol) s
    some (sp, (List.range P.nsoSpi).foldl (fun n id_so => (List.range P.nsoCol).foldl (fun n ic_so => n + norm2 g sched (sp (so_sp_col_ind P.nsoCol id_so ic_so))) n) 0)
  else none

/-- the position of the source of a hit, and the number of reals drawn after it: `drawScalar` uses the reals of the origin; conversion to integer drops the fraction.
`/repo/projects/ib/hit.hpp:438-449`, `/repo/src/base/sitmo.hpp:395-401,459-468` -/
def drawOri (g : Geo) (rng : Rng) (doNotShift : Bool) (pos : W) : Coords × W :=
  (List.finRange 4).foldl (fun (s : Coords × W) mu =>
    let c := siteReal rng s.2 g.glbVol 0 0 * (g.L mu : ℚ)
    (Function.update s.1 mu (if doNotShift then 0 else (Int.tdiv c.num c.den).toNat), s.2 + 1)) (fun _ => 0, pos)

/-! ### Local insertions -/

/-- `build_source`.  `/repo/projects/ib/prop.cpp:557-583` -/
def build_source (source_terms : List (ℂ × Fld)) : Fld := fun rk ivol => source_terms.foldl (fun (o : SpCol) c => o + c.1 • c.2 rk ivol) 0

/-- `rel_t`: the global time at distance `t` from the source.  `/repo/projects/ib/prop.cpp:725-727` -/
def rel_t (g : Geo) (oriCoords : Coords) (t : Int) : Int := if t ≠ -1 then Int.tmod (t + oriCoords 0) (g.L 0) else t

/-- `prop_multiply_with_gamma`.  `/repo/src/operations/covariant_derivative.cpp:423-438` -/
def prop_multiply_with_gamma (g : Geo) (jc : Coords) (ig : Fin 19) (inp : Fld) (twall : Int) : Fld := fun rk ivol =>
  (if onTime g jc (coordOfLx rk g.R) ivol twall then (1 : ℂ) else 0) • diracSpinColor (baseGamma ig) (inp rk ivol)

/-- `prop_multiply_with_color_delta`.  `/repo/src/operations/covariant_derivative.cpp:362-378`, `/repo/src/new_types/su3_op.hpp:412-418,1880-1886` -/
def prop_multiply_with_color_delta (g : Geo) (jc : Coords) (ic : Nat) (inp : Fld) (twall : Int) : Fld := fun rk ivol =>
  (if onTime g jc (coordOfLx rk g.R) ivol twall then (1 : ℂ) else 0) • (fun id (c : Fin 3) => inp rk ivol id c * if ic = c.val then 1 else 0)

/-- `select_propagator_timeslice`.  `/repo/src/operations/source.hpp:10-30` -/
def select_propagator_timeslice (g : Geo) (jc : Coords) (inp : Fld) (timeslice : Int) : Fld := fun rk ivol =>
  if 0 ≤ timeslice ∧ timeslice < g.L 0 then
    if ((((glbCoordOfLoclx g (coordOfLx rk g.R) ivol).getD jc) 0 : Nat) : Int) ≠ timeslice then 0 else inp rk ivol
  else inp rk ivol

/-- `phase_prop`.  `/repo/projects/ib/prop.cpp:450-480` -/
def phase_prop (g : Geo) (jc oriCoords : Coords) (inp : Fld) (t : Int) (th : Dir → ℝ) : Fld := fun rk ivol =>
  let arg := [1, 2, 3].foldl (fun (arg : ℝ) (mu : Dir) => arg + Real.pi * th mu * (rel_coord_of_loclx g jc oriCoords rk ivol mu : ℝ) / (g.L mu : ℝ)) 0
  let factor : ℂ := ⟨Real.cos arg, Real.sin arg⟩
  if onTime g jc (coordOfLx rk g.R) ivol t then factor • inp rk ivol else 0

/-- `select_position`.  `/repo/projects/ib/prop.cpp:654-677` -/
def select_position (g : Geo) (jc oriCoords : Coords) (ori : Fld) (pos : Nat) : Fld := fun rk ivol =>
  let gc := coordOfLx pos g.L
  let mask := (List.finRange 4).foldl (fun (o : Bool) mu => o && decide (rel_coord_of_loclx g jc oriCoords rk ivol mu = gc mu)) true
  (if mask then (1 : ℂ) else 0) • ori rk ivol

/-- `select_spin`.  `/repo/projects/ib/prop.cpp:680-693` -/
def select_spin (ori : Fld) (s : Nat) : Fld := fun rk ivol id => (if id.val = s then (1 : ℂ) else 0) • ori rk ivol id

/-- `select_color`.  `/repo/projects/ib/prop.cpp:696-710` -/
def select_color (ori : Fld) (c : Nat) : Fld := fun rk ivol id ic => ori rk ivol id ic * if ic.val = c then 1 else 0

end

end Nissa.Src
