/-
Model of the cartesian geometry of nissa.
Source: /repo/src/geometry/geometry_lx.cpp, /repo/src/geometry/geometry_lx.hpp, /repo/src/base/init.cpp (initGrid).
Simplifications, once for all: C++ `int`/`int64_t` are unbounded `Nat`/`Int` except where stated
(`glbCoordOfGlblx`); global variables become fields/functions of a structure `Geo`; arrays become functions.
-/
import Mathlib.Logic.Function.Basic
import Mathlib.Data.Fin.VecNotation

namespace Nissa.Lx

/-- `NDIM`=4, geometry_lx.hpp:23. -/
abbrev Dir := Fin 4

/-- `Coords`, geometry_lx.hpp:74 (non negative components). -/
abbrev Coords := Dir → Nat

/-- Coordinates that may lie outside of the local box (same C++ type `Coords`, components may be negative). -/
abbrev ICoords := Dir → Int

/-- order in which `for(mu=0;mu<NDIM;mu++)` visits the directions -/
def dirs : List Dir := [0, 1, 2, 3]

/-- The loop body `ilx=ilx*s[mu]+x[mu]` run over a list of directions
(geometry_lx.cpp:29-33, 42-46, 54-58). -/
def mix (ds : List Dir) (s x : Coords) : Nat :=
  ds.foldl (fun ilx mu => ilx * s mu + x mu) 0

/-- `lxOfCoord`, geometry_lx.cpp:51-60 -/
def lxOfCoord (x s : Coords) : Nat := mix dirs s x

/-- `bordlxOfCoord`, geometry_lx.cpp:37-48 -/
def bordlxOfCoord (loc : Coords) (x : Coords) (mu : Dir) : Nat :=
  mix (dirs.filter (fun nu => nu ≠ mu)) loc x

/-- `edgelxOfCoord`, geometry_lx.cpp:23-35 -/
def edgelxOfCoord (loc : Coords) (x : Coords) (mu nu : Dir) : Nat :=
  mix (dirs.filter (fun rho => rho ≠ mu ∧ rho ≠ nu)) loc x

/-- `volOfLx`, geometry_lx.cpp:77-85 -/
def volOfLx (s : Coords) : Nat := dirs.foldl (fun vol mu => vol * s mu) 1

/-- One step of the loop of `coordOfLx` -/
def coordStep (s : Coords) (st : Coords × Nat) (mu : Dir) : Coords × Nat :=
  (Function.update st.1 mu (st.2 % s mu), st.2 / s mu)

/-- `coordOfLx`, geometry_lx.cpp:62-75: `for(mu=NDIM-1;mu>=0;mu--){x[mu]=ilx%s[mu];ilx/=s[mu];}` -/
def coordOfLx (ilx : Nat) (s : Coords) : Coords :=
  (dirs.reverse.foldl (coordStep s) (fun _ => 0, ilx)).1

/-- conversion of a 64-bit value to `int` (two's complement wrap) -/
def toInt32 (z : Int) : Int := z.bmod (2 ^ 32)

/-- One step of `glbCoordOfGlblx`: `int next=gx/glbSize[mu]; x[mu]=gx-next*glbSize[mu]; gx=next;`.
The product is computed in `int`; the model wraps only `next` (exact whenever the product fits). -/
def glbCoordStep (s : Coords) (st : ICoords × Int) (mu : Dir) : ICoords × Int :=
  let next := toInt32 (Int.tdiv st.2 (s mu))
  (Function.update st.1 mu (st.2 - next * s mu), next)

/-- `glbCoordOfGlblx`, geometry_lx.cpp:123-136 -/
def glbCoordOfGlblx (s : Coords) (gx : Nat) : ICoords :=
  (dirs.reverse.foldl (glbCoordStep s) (fun _ => 0, (gx : Int))).1

/-- The global variables fixing the geometry: `glbSize` and `nRanksDir`. -/
structure Geo where
  L : Coords
  R : Coords

namespace Geo
variable (g : Geo)

/-- `locSize[mu]=glbSize[mu]/nRanksDir[mu]`, init.cpp:630-633 -/
def loc : Coords := fun mu => g.L mu / g.R mu

/-- `isDirParallel[mu]=(nRanksDir[mu]>1)`, init.cpp:617 -/
def isPar (mu : Dir) : Bool := decide (1 < g.R mu)

/-- The checks initGrid/init_boxes perform before going on (init.cpp:604-618 and 526-528): otherwise the program CRASHes.
`glbVol%nranks` is implied. -/
structure Ok (g : Geo) : Prop where
  R_pos : ∀ mu, 0 < g.R mu
  dvd : ∀ mu, g.R mu ∣ g.L mu
  loc_ge : ∀ mu, 2 ≤ g.loc mu

instance : Decidable (Ok g) :=
  decidable_of_iff ((∀ mu, 0 < g.R mu) ∧ (∀ mu, g.R mu ∣ g.L mu) ∧ (∀ mu, 2 ≤ g.loc mu))
    ⟨fun h => ⟨h.1, h.2.1, h.2.2⟩, fun h => ⟨h.1, h.2, h.3⟩⟩

/-- `glbVol`, init.cpp:587-590 -/
def glbVol : Nat := volOfLx g.L
/-- number of ranks, which MPI guarantees to be the product of the cartesian grid sides -/
def nranks : Nat := volOfLx g.R
/-- `locVol=glbVol/nranks`, init.cpp:635 -/
def locVol : Nat := g.glbVol / g.nranks

/-- `bordDirVol`, init.cpp:663-664 -/
def bordDirVol (mu : Dir) : Nat := if g.isPar mu then g.locVol / g.loc mu else 0

/-- `bordOffset[mu]=bordOffset[mu-1]+bordDirVol[mu-1]`, init.cpp:659,670 -/
def bordOffset (mu : Dir) : Nat := ((dirs.take mu.val).map g.bordDirVol).foldl (· + ·) 0

/-- `bordVolh`, init.cpp:667,672 -/
def bordVolh : Nat := (dirs.map g.bordDirVol).foldl (· + ·) 0
/-- `bordVol`, init.cpp:673 -/
def bordVol : Nat := 2 * g.bordVolh

/-- `nEdges`=6, geometry_lx.hpp:186 -/
abbrev Edge := Fin 6

/-- `edge_dirs`, filled at init.cpp:680-698 by `for(mu) for(nu=mu+1)` -/
def edgeDirs : Edge → Dir × Dir := ![(0, 1), (0, 2), (0, 3), (1, 2), (1, 3), (2, 3)]

/-- `edge_numb`, init.cpp:705-714 (the diagonal, -1 in the code, is never used: 0 here) -/
def edgeNumb : Dir → Dir → Edge :=
  ![![0, 0, 1, 2], ![0, 0, 3, 4], ![1, 3, 0, 5], ![2, 4, 5, 0]]

/-- `edge_dir_vol`, init.cpp:684-685 -/
def edgeDirVol (e : Edge) : Nat :=
  if g.isPar (edgeDirs e).1 && g.isPar (edgeDirs e).2 then g.bordDirVol (edgeDirs e).1 / g.loc (edgeDirs e).2 else 0

/-- list of the edges in the order they are numbered -/
def edges : List Edge := [0, 1, 2, 3, 4, 5]

/-- `edge_offset`, init.cpp:679,691-692 -/
def edgeOffset (e : Edge) : Nat := ((edges.take e.val).map g.edgeDirVol).foldl (· + ·) 0

/-- `edgeVol`, init.cpp:678,688,701-702 -/
def edgeVol : Nat := 4 * (edges.map g.edgeDirVol).foldl (· + ·) 0

/-- `perpDirs`, init.cpp:212-215 -/
def perpDirs : Dir → List Dir := ![[1, 2, 3], [0, 2, 3], [0, 1, 3], [0, 1, 2]]

/-- `perp2Dirs`, geometry_lx.hpp:232-236 -/
def perp2Dirs : Dir → List (List Dir) :=
  ![[[2, 3], [1, 3], [1, 2]], [[2, 3], [0, 3], [0, 2]], [[1, 3], [0, 3], [0, 1]], [[1, 2], [0, 2], [0, 1]]]

/-- `while(x<0) x+=L;`, geometry_lx.cpp:206-207. For `L=0` the real loop would not end; the model stops. -/
def wrapUp (L : Nat) (x : Int) : Int :=
  if x < 0 ∧ 0 < L then wrapUp L (x + L) else x
termination_by (-x).toNat
decreasing_by omega

/-- `while(x>=L) x-=L;`, geometry_lx.cpp:208-209 -/
def wrapDown (L : Nat) (x : Int) : Int :=
  if (L : Int) ≤ x ∧ 0 < L then wrapDown L (x - L) else x
termination_by x.toNat
decreasing_by omega

/-- pseudo localization loop, geometry_lx.cpp:201-210 -/
def pseudoLoc (x : ICoords) : Coords := fun mu => (wrapDown (g.L mu) (wrapUp (g.L mu) (x mu))).toNat

/-- locality check, geometry_lx.cpp:213-218 -/
def isLoc (x : Coords) : Bool := dirs.all (fun mu => decide (x mu < g.loc mu))

/-- `is_bord[mu]`, geometry_lx.cpp:223-232: the second `if` overwrites the first -/
def isBord (x : Coords) (mu : Dir) : Int :=
  if g.isPar mu then
    (if x mu = g.loc mu then 1 else if (x mu : Int) = (g.L mu : Int) - 1 then -1 else 0)
  else 0

/-- Border branch for one direction, geometry_lx.cpp:235-247. `some none` would be the CRASH. -/
def bordCase (x : Coords) (mu : Dir) : Option (Option Int) :=
  if g.isBord x mu ≠ 0 ∧ (perpDirs mu).all (fun nu => g.isBord x nu == 0) then
    if g.isBord x mu = -1 then
      some (some ((g.locVol + g.bordOffset mu + bordlxOfCoord g.loc x mu : Nat) : Int))
    else if g.isBord x mu = 1 then
      some (some ((g.locVol + g.bordVol / 2 + g.bordOffset mu + bordlxOfCoord g.loc x mu : Nat) : Int))
    else some none
  else none

/-- the `k*edgeVol/4` of geometry_lx.cpp:267-270 -/
def edgeQuarter (k : Nat) : Nat := k * g.edgeVol / 4

/-- Edge branch for one pair of directions, geometry_lx.cpp:250-274; `perp2` is `perp2Dirs[mu][inu]` -/
def edgeCase (x : Coords) (mu nu : Dir) (perp2 : List Dir) : Option (Option Int) :=
  let al := if mu < nu then mu else nu
  let be := if nu < mu then mu else nu
  if g.isBord x mu ≠ 0 ∧ g.isBord x nu ≠ 0 ∧ perp2.all (fun rho => g.isBord x rho == 0) then
    let base := g.locVol + g.bordVol + g.edgeOffset (edgeNumb mu nu)
    let e := edgelxOfCoord g.loc x mu nu
    if g.isBord x al = -1 ∧ g.isBord x be = -1 then some (some ((base + g.edgeQuarter 0 + e : Nat) : Int))
    else if g.isBord x al = -1 ∧ g.isBord x be = 1 then some (some ((base + g.edgeQuarter 1 + e : Nat) : Int))
    else if g.isBord x al = 1 ∧ g.isBord x be = -1 then some (some ((base + g.edgeQuarter 2 + e : Nat) : Int))
    else if g.isBord x al = 1 ∧ g.isBord x be = 1 then some (some ((base + g.edgeQuarter 3 + e : Nat) : Int))
    else some none
  else none

/-- all the (mu, nu, perp2) triples in the order of the double loop at geometry_lx.cpp:250-253 -/
def edgeTriples : List (Dir × Dir × List Dir) :=
  dirs.flatMap (fun mu => ((perpDirs mu).zip (perp2Dirs mu)).map (fun p => (mu, p.1, p.2)))

/-- `fullLxOfCoords`, geometry_lx.cpp:197-277; `none` = CRASH, `some (-1)` = not available. -/
def fullLx (extX : ICoords) : Option Int :=
  let x := g.pseudoLoc extX
  if g.isLoc x then some ((lxOfCoord x g.loc : Nat) : Int)
  else match dirs.findSome? (g.bordCase x) with
    | some r => r
    | none => match edgeTriples.findSome? (fun t => g.edgeCase x t.1 t.2.1 t.2.2) with
      | some r => r
      | none => some (-1)

end Geo

/-- `rankCoordsOfSiteOfCoord`, geometry_lx.cpp:156-164 -/
def rankCoordsOfSite (g : Geo) (x : Coords) : Coords := fun mu => x mu / g.loc mu

/-- `rankHostingSiteOfCoords`, geometry_lx.cpp:179-185 (`rankOfCoords`=lxOfCoord on nRanksDir, 167-170) -/
def rankHostingSite (g : Geo) (x : Coords) : Nat := lxOfCoord (rankCoordsOfSite g x) g.R

/-- `getLoclxAndRankOfCoords`, geometry_lx.hpp:334-348 -/
def getLoclxAndRankOfCoords (g : Geo) (x : Coords) : Nat × Nat :=
  let p : Coords := fun mu => x mu / g.loc mu
  let l : Coords := fun mu => x mu - p mu * g.loc mu
  (lxOfCoord p g.R, lxOfCoord l g.loc)

end Nissa.Lx
