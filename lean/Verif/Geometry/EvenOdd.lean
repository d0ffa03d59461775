/-
Model of the even/odd geometry (/repo/src/geometry/geometry_eo.cpp, geometry_mix.hpp) on the rank with coordinates `r`.
Tables are functions to `Option`: `none` = never written.
-/
import Verif.Geometry.Halo

namespace Nissa.Lx
open Geo

/-- `glb_coord_parity`, geometry_eo.cpp:24-31 -/
def coordParity (c : Coords) : Nat := (dirs.foldl (fun s mu => s + c mu) 0) % 2

/-- the check of set_eo_geometry, geometry_eo.cpp:46-49: otherwise CRASH -/
def EoOk (g : Geo) : Prop := ∀ mu, g.loc mu % 2 = 0

instance (g : Geo) : Decidable (EoOk g) := by unfold EoOk; infer_instance

/-- `locVolh`, geometry_eo.cpp:53 -/
def locVolh (g : Geo) : Nat := g.locVol / 2

/-- all the sites known to a rank -/
def allVol (g : Geo) : Nat := g.locVol + g.bordVol + g.edgeVol

/-- `loclx_parity`, geometry_eo.cpp:72 -/
def loclxParity (g : Geo) (r : Coords) (l : Nat) : Option Nat := (glbCoordOfLoclx g r l).map coordParity

/-- state of the labelling loop: the counters `iloc_eo`, and the tables `loceo_of_loclx` and `loclx_of_loceo` -/
structure EoTab where
  cnt : Nat → Nat
  loceo : Nat → Option Nat
  loclx : Nat → Nat → Option Nat

/-- one iteration, geometry_eo.cpp:69-78 -/
def eoStep (par : Nat → Option Nat) (t : EoTab) (l : Nat) : EoTab :=
  match par l with
  | none => t
  | some p => {
      loceo := Function.update t.loceo l (some (t.cnt p))
      loclx := Function.update t.loclx p (Function.update (t.loclx p) (t.cnt p) (some l))
      cnt := Function.update t.cnt p (t.cnt p + 1) }

/-- geometry_eo.cpp:67-78 -/
def eoTab (g : Geo) (r : Coords) : EoTab :=
  (List.range (allVol g)).foldl (eoStep (loclxParity g r)) ⟨fun _ => 0, fun _ => none, fun _ _ => none⟩

def loceoOfLoclx (g : Geo) (r : Coords) (l : Nat) : Option Nat := (eoTab g r).loceo l
def loclxOfLoceo (g : Geo) (r : Coords) (p e : Nat) : Option Nat := (eoTab g r).loclx p e

/-- `loceo_neighup`/`loceo_neighdw` of one parity and direction, geometry_eo.cpp:81-98 -/
def loceoNeigh (g : Geo) (r : Coords) (d : Int) (p : Nat) (mu : Dir) (e : Nat) : Option Nat :=
  (writeLoop
    (fun l => (loclxNeigh g r d l mu).bind (fun j =>
      if 0 ≤ j ∧ j < (allVol g : Int) ∧ loclxParity g r l = some p then loceoOfLoclx g r l else none))
    (fun l => (loclxNeigh g r d l mu).bind (fun j => loceoOfLoclx g r j.toNat))
    (List.range (allVol g)) (fun _ => none) e).join

/-- `surfeo_of_bordeo` of one parity, geometry_eo.cpp:101-105 -/
def surfeoOfBordeo (g : Geo) (r : Coords) (p : Nat) (i : Nat) : Option Nat :=
  (writeLoop
    (fun b => (surflxOfBordlx g r b).bind (fun s =>
      if loclxParity g r s = some p then (loceoOfLoclx g r (b + g.locVol)).map (· - locVolh g) else none))
    (fun b => (surflxOfBordlx g r b).bind (loceoOfLoclx g r))
    (List.range g.bordVol) (fun _ => none) i).join

/-- `surfeo_of_edgeo` of one parity, geometry_eo.cpp:108-112 -/
def surfeoOfEdgeo (g : Geo) (r : Coords) (p : Nat) (i : Nat) : Option Nat :=
  (writeLoop
    (fun b => (surflxOfEdgelx g r b).bind (fun s =>
      if loclxParity g r s = some p then (loceoOfLoclx g r (b + g.locVol + g.bordVol)).map (· - locVolh g - g.bordVolh) else none))
    (fun b => (surflxOfEdgelx g r b).bind (loceoOfLoclx g r))
    (List.range g.edgeVol) (fun _ => none) i).join

/-- Content of the halo of a field of parity `p` after updateHalo (divCoeff=2): field.hpp:1148-1157,1216-1222 with
surfSiteOfHaloSite = surfeo_of_bordeo[p] (field.hpp:194-204). `F rank eo` is the content of the field. -/
def eoHaloAfterUpdate {V : Type} (g : Geo) (p : Nat) (F : Nat → Nat → V) (r : Coords) : Option (Nat → Option V) :=
  haloRecvBuf g 2 (fun _ _ => true) (fun r i => (surfeoOfBordeo g r p i).map (F (lxOfCoord r g.R))) r

/-- Same for the edges -/
def eoEdgesAfterUpdate {V : Type} (g : Geo) (p : Nat) (F : Nat → Nat → V) (r : Coords) : Option (Nat → Option V) :=
  edgeRecvBuf g 2 (fun r i => (surfeoOfEdgeo g r p i).map (F (lxOfCoord r g.R))) r

/-- `split_lx_vector_into_eo_parts`, geometry_mix.hpp:44-60: `out p` is the part of parity `p`, `none` what was never written -/
def splitEo {V : Type} (g : Geo) (r : Coords) (lx : Nat → V) (p : Nat) : Nat → Option V :=
  writeLoop (fun l => if loclxParity g r l = some p then loceoOfLoclx g r l else none) lx (List.range g.locVol) (fun _ => none)

/-- `paste_eo_parts_into_lx_vector`, geometry_mix.hpp:19-40 -/
def pasteEo {V : Type} (g : Geo) (r : Coords) (eo : Nat → Nat → V) : Nat → Option V :=
  writeLoop (fun pe : Nat × Nat => loclxOfLoceo g r pe.1 pe.2) (fun pe => eo pe.1 pe.2)
    (([0, 1] : List Nat).flatMap (fun p => (List.range (locVolh g)).map (fun e => (p, e)))) (fun _ => none)

/-- `get_evn_or_odd_part_of_lx_vector`, geometry_mix.hpp:64-82 -/
def getEoPart {V : Type} (g : Geo) (r : Coords) (lx : Nat → V) (p : Nat) (e : Nat) : Option V :=
  if e < locVolh g then (loclxOfLoceo g r p e).map lx else none

end Nissa.Lx
