/-
Model of the tables filled by set_lx_geometry on the rank with coordinates `r`
(/repo/src/geometry/geometry_lx.cpp:339-466). A table is a function to `Option`: `none` = never written (uninitialised memory).
-/
import Verif.Geometry.Model

namespace Nissa.Lx
open Geo

/-- run a loop of conditional assignments `t[key a]=val a` over a list of iterations -/
def writeLoop {A V : Type} (key : A → Option Nat) (val : A → V) (l : List A) (t0 : Nat → Option V) : Nat → Option V :=
  l.foldl (fun t a => match key a with
    | some i => Function.update t i (some (val a))
    | none => t) t0

/-- `extended_box_size`, geometry_lx.cpp:344-349 -/
def extBoxSize (g : Geo) : Coords := fun mu => (if g.isPar mu then 2 else 0) + g.loc mu

/-- coordinates visited at iteration `ivol`, geometry_lx.cpp:354-355 -/
def extX (g : Geo) (ivol : Nat) : ICoords := fun mu =>
  (coordOfLx ivol (extBoxSize g) mu : Int) - (if g.isPar mu then 1 else 0)

/-- index assigned at iteration `ivol` or nothing, geometry_lx.cpp:358-359 -/
def labelKey (g : Geo) (ivol : Nat) : Option Nat :=
  match g.fullLx (extX g ivol) with
  | some i => if i ≠ -1 then some i.toNat else none
  | none => none

/-- geometry_lx.cpp:362-363 -/
def glbCoordVal (g : Geo) (r : Coords) (x : ICoords) : Coords := fun nu =>
  ((x nu + r nu * g.loc nu + g.L nu) % g.L nu).toNat

/-- `glbCoordOfLoclx`, filled by label_all_sites, geometry_lx.cpp:340-391 -/
def glbCoordOfLoclx (g : Geo) (r : Coords) : Nat → Option Coords :=
  writeLoop (labelKey g) (fun ivol => glbCoordVal g r (extX g ivol)) (List.range (volOfLx (extBoxSize g))) (fun _ => none)

/-- `locCoordOfLoclx`, geometry_lx.cpp:369-372 (only for iloc<locVol) -/
def locCoordOfLoclx (g : Geo) : Nat → Option ICoords :=
  writeLoop (fun ivol => (labelKey g ivol).bind (fun i => if i < g.locVol then some i else none)) (fun ivol => extX g ivol)
    (List.range (volOfLx (extBoxSize g))) (fun _ => none)

/-- `glblxOfLoclx`, geometry_lx.cpp:366,373 -/
def glblxOfLoclx (g : Geo) (r : Coords) : Nat → Option Nat :=
  writeLoop (fun ivol => (labelKey g ivol).bind (fun i => if i < g.locVol then some i else none))
    (fun ivol => lxOfCoord (glbCoordVal g r (extX g ivol)) g.L) (List.range (volOfLx (extBoxSize g))) (fun _ => none)

/-- `loclxNeighup`/`loclxNeighdw` (`d` = +1 or -1), geometry_lx.cpp:400-423: defined when the coordinates of the site are known.
Outer `none`: reads uninitialised coordinates or CRASH. -/
def loclxNeigh (g : Geo) (r : Coords) (d : Int) (ivol : Nat) (mu : Dir) : Option Int :=
  match glbCoordOfLoclx g r ivol with
  | none => none
  | some c =>
    let n : ICoords := fun nu => (c nu : Int) - g.loc nu * r nu
    g.fullLx (Function.update n mu (n mu + d))

/-- `bordlx_of_surflx`, geometry_lx.cpp:280-300; outer `none` = crash/uninitialised -/
def bordlxOfSurflx (g : Geo) (r : Coords) (loclx : Nat) (mu : Dir) : Option Int :=
  if !g.isPar mu then some (-1)
  else if g.loc mu < 2 then none
  else match locCoordOfLoclx g loclx with
    | none => none
    | some c =>
      if c mu = 0 then (loclxNeigh g r (-1) loclx mu).map (· - g.locVol)
      else if c mu = (g.loc mu : Int) - 1 then (loclxNeigh g r 1 loclx mu).map (· - g.locVol)
      else some (-1)

/-- `edgelx_of_surflx`, geometry_lx.cpp:302-337: two chained steps along the directions of the edge -/
def edgelxOfSurflx (g : Geo) (r : Coords) (loclx : Nat) (e : Edge) : Option Int :=
  let mu := (edgeDirs e).1
  let nu := (edgeDirs e).2
  if !(g.isPar mu && g.isPar nu) then some (-1)
  else if g.loc mu < 2 ∨ g.loc nu < 2 then none
  else match locCoordOfLoclx g loclx with
    | none => none
    | some c =>
      if c mu % ((g.loc mu : Int) - 1) = 0 then
        match loclxNeigh g r (if c mu ≠ 0 then 1 else -1) loclx mu with
        | none => none
        | some m =>
          -- note: the C++ lambda keeps using the coordinates of the starting site `loclx`
          if c nu % ((g.loc nu : Int) - 1) = 0 then
            (loclxNeigh g r (if c nu ≠ 0 then 1 else -1) m.toNat nu).map (· - g.locVol - g.bordVol)
          else some (-1)
      else some (-1)

/-- turn "-1" into no assignment -/
def okIdx : Option Int → Option Nat
  | some i => if i ≠ -1 then some i.toNat else none
  | none => none

/-- `surflxOfBordlx`, findSurfOfBord, geometry_lx.cpp:426-437 -/
def surflxOfBordlx (g : Geo) (r : Coords) : Nat → Option Nat :=
  writeLoop (fun p : Nat × Dir => okIdx (bordlxOfSurflx g r p.1 p.2)) (fun p => p.1)
    ((List.range g.locVol).flatMap (fun l => dirs.map (fun mu => (l, mu)))) (fun _ => none)

/-- `surflxOfEdgelx`, findSurfOfEdges, geometry_lx.cpp:440-453 -/
def surflxOfEdgelx (g : Geo) (r : Coords) : Nat → Option Nat :=
  writeLoop (fun p : Nat × Edge => okIdx (edgelxOfSurflx g r p.1 p.2)) (fun p => p.1)
    ((List.range g.locVol).flatMap (fun l => edges.map (fun e => (l, e)))) (fun _ => none)

/-- `rankNeighdw/up[mu]`, set_lx_geometry geometry_lx.cpp:502-518; `ori`=0 backward, 1 forward. Rank as coordinates -/
def rankNeigh (g : Geo) (r : Coords) (ori : Fin 2) (mu : Dir) : Coords :=
  if ori = 0 then Function.update r mu ((r mu + g.R mu - 1) % g.R mu)
  else Function.update r mu ((r mu + 1) % g.R mu)

/-- `rank_edge_neigh[bf1][bf2][iEdge]`, init.cpp:716-727. Rank as coordinates -/
def rankEdgeNeigh (g : Geo) (r : Coords) (bf1 bf2 : Fin 2) (e : Edge) : Coords :=
  let mu := (edgeDirs e).1
  let nu := (edgeDirs e).2
  let c := Function.update r mu ((r mu + g.R mu + 2 * bf1.val - 1) % g.R mu)
  Function.update c nu ((c nu + g.R nu + 2 * bf2.val - 1) % g.R nu)

end Nissa.Lx
