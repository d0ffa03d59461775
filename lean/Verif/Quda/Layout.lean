import Verif.Geometry.PropsEo

set_option linter.all false

/-!
# Exchange of fields with the QUDA library (`/repo/src/base/quda_bridge.cpp`)

Tables which map the sites of the two libraries, conversion of gauge configuration, spinors and colors, ranks.
Tables and converted fields are functions to `Option`: `none` = never written.

Simplifications.
* `MPI_Cart_rank` is row-major, as the standard prescribes; `MPI_Cart_create` is called with `reorder=1` and is taken not to
  reorder the ranks.
* The elements of matrices, spins and colors are copied as they are, so they are left abstract.
-/

namespace Nissa.Quda

open Nissa.Lx Nissa.Lx.Geo

/-- Order of the directions from the slowest, `/repo/src/base/quda_bridge.cpp:220` -/
def qudaOrder : List Dir := [0, 3, 2, 1]

/-- `quda_of_loclx`, `/repo/src/base/quda_bridge.cpp:212-231`; `none`: CRASH, or coordinates not set -/
def qudaOfLoclx (g : Geo) (r : Coords) (ivol : Nat) : Option Nat :=
  match locCoordOfLoclx g ivol, loclxParity g r ivol with
  | some c, some par =>
    let itmp := qudaOrder.foldl (fun itmp nu => itmp * g.loc nu + (c nu).toNat) 0
    let quda := par * locVolh g + itmp / 2
    if quda < g.locVol then some quda else none
  | _, _ => none

/-- `loclx_of_quda`, `/repo/src/base/quda_bridge.cpp:212-231` -/
def loclxOfQuda (g : Geo) (r : Coords) : Nat → Option Nat :=
  writeLoop (qudaOfLoclx g r) id (List.range g.locVol) (fun _ => none)

/-- `out_dir`, `/repo/src/base/quda_bridge.cpp:363` -/
def outDir (nu : Dir) : Dir := ⟨(nu.val + 4 - 1) % 4, by omega⟩

/-- The sites and the directions of a loop on the links. -/
def links (n : Nat) : List (Nat × Dir) := (List.range n).flatMap fun i => dirs.map fun nu => (i, nu)

/-- `remap_nissa_to_quda` of a configuration, `/repo/src/base/quda_bridge.cpp:347-367` -/
def remapConf {V : Type} (g : Geo) (r : Coords) (inp : Nat → Dir → V) (d : Dir) : Nat → Option V :=
  writeLoop (fun a : Nat × Dir => if outDir a.2 = d then qudaOfLoclx g r a.1 else none) (fun a => inp a.1 a.2)
    (links g.locVol) (fun _ => none)

/-- The sites of the two parities, one parity after the other. -/
def eoSites (n : Nat) : List (Nat × Nat) := [0, 1].flatMap fun par => (List.range n).map fun e => (par, e)

/-- `remap_nissa_to_quda` of a configuration split in even and odd sites, `/repo/src/base/quda_bridge.cpp:370-392` -/
def remapConfEo {V : Type} (g : Geo) (r : Coords) (inp : Nat → Nat → Dir → V) (d : Dir) : Nat → Option V :=
  writeLoop (fun a : (Nat × Nat) × Dir =>
      if outDir a.2 = d then (loclxOfLoceo g r a.1.1 a.1.2).bind (qudaOfLoclx g r) else none)
    (fun a => inp a.1.1 a.1.2 a.2)
    ((eoSites (locVolh g)).flatMap fun s => dirs.map fun nu => (s, nu)) (fun _ => none)

/-- `remap_nissa_to_quda` of a spinor, `/repo/src/base/quda_bridge.cpp:395-407` -/
def remapSpin {V : Type} (g : Geo) (r : Coords) (inp : Nat → V) : Nat → Option V :=
  writeLoop (qudaOfLoclx g r) inp (List.range g.locVol) (fun _ => none)

/-- `remap_nissa_to_quda` of a color, `/repo/src/base/quda_bridge.cpp:410-425` -/
def remapColor {V : Type} (g : Geo) (r : Coords) (inp : Nat → Nat → V) : Nat → Option V :=
  writeLoop (fun a : Nat × Nat => (loclxOfLoceo g r a.1 a.2).bind (qudaOfLoclx g r)) (fun a => inp a.1 a.2)
    (eoSites (locVolh g)) (fun _ => none)

/-- `remap_quda_to_nissa` of a spinor, `/repo/src/base/quda_bridge.cpp:420-432` -/
def remapSpinBack {V : Type} (g : Geo) (r : Coords) (inp : Nat → V) : Nat → Option V :=
  writeLoop (loclxOfQuda g r) inp (List.range g.locVol) (fun _ => none)

/-- `remap_quda_to_nissa` of a color, `/repo/src/base/quda_bridge.cpp:435-446`: element e of parity p -/
def remapColorBack {V : Type} (g : Geo) (r : Coords) (inp : Nat → V) (p : Nat) : Nat → Option V :=
  writeLoop (fun iquda => (loclxOfQuda g r iquda).bind fun ivol =>
      if loclxParity g r ivol = some p then loceoOfLoclx g r ivol else none)
    inp (List.range g.locVol) (fun _ => none)

/-- `gauge_param.X` and `grid`: sizes of the local lattice and of the grid of ranks as told to QUDA,
`/repo/src/base/quda_bridge.cpp:250-251,284-286` -/
def toQuda (s : Coords) : Coords := fun mu => s ((![1, 2, 3, 0] : Dir → Dir) mu)

/-- `get_rank_of_quda_coords`, `/repo/src/base/quda_bridge.cpp:99-113` -/
def rankOfQudaCoords (g : Geo) (coords : Coords) : Nat :=
  lxOfCoord (fun mu => coords ((![3, 0, 1, 2] : Dir → Dir) mu)) g.R

/-! ## Specification: how QUDA numbers sites, directions and ranks

QUDA numbers the directions x, y, z, t from 0 to 3.  The sites of a rank are split by parity (even first), and in each parity they
follow the lexicographic order, x being the fastest; the index in the parity is half of the lexicographic index. -/

/-- Direction of nissa (t, x, y, z) called d by QUDA. -/
def dirOf (d : Dir) : Dir := (![1, 2, 3, 0] : Dir → Dir) d

/-- Site y of a lattice of sizes X, in the numbering of QUDA. -/
def qudaSite (X y : Coords) : Nat :=
  ((y 0 + y 1 + y 2 + y 3) % 2) * (X 0 * X 1 * X 2 * X 3 / 2) + (((y 3 * X 2 + y 2) * X 1 + y 1) * X 0 + y 0) / 2

/-- Coordinates of nissa of the site whose coordinates for QUDA are y. -/
def ofQuda (y : Coords) : Coords := fun mu => y ((![3, 0, 1, 2] : Dir → Dir) mu)

end Nissa.Quda
