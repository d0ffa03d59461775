import Verif.Stencil.Staples
import Verif.Comm.AllToAll
import Verif.Color.Su3Fun
import Verif.Geometry.Tables

/-! # The sweeper of the gauge configuration: sets of links to be updated together, links required, staples

`/repo/src/operations/su3_paths/gauge_sweeper.{hpp,cpp}`, `/repo/src/base/init.cpp:523-558` (boxes),
`/repo/src/communicate/all_to_all.cpp:410-440` (`add_conf_link_for_paths`).

The local volume is divided in `2^4` boxes, each of which is divided in sets according to the direction of the link and to a
parity; the links of a set are updated together.  Not modelled: the update itself (`sweep_conf`, `pack_links` and
`reorder_packing_link_source_dest` only stop the program), the timings, `find_packing_index`. -/

set_option linter.all false

namespace Nissa.Sweep
open Nissa.Lx Nissa.Sten Nissa.Gauge Nissa.Paths Nissa.Su3f
open Matrix

/-! ### boxes -/

/-- `boxCoord[ibox]`.  `/repo/src/base/init.cpp:534-543` -/
def boxCoord (ibox : Nat) : Coords := coordOfLx ibox (fun _ => 2)
/-- `boxSize[ibox]`.  `/repo/src/base/init.cpp:526-531, 550-551` -/
def boxSize (g : Geo) (ibox : Nat) : Coords := fun mu =>
  if ibox ≠ 0 then (if boxCoord ibox mu = 0 then g.loc mu / 2 else g.loc mu - g.loc mu / 2) else g.loc mu / 2
/-- `nsite_per_box[ibox]`.  `/repo/src/base/init.cpp:547-552` -/
def nsitePerBox (g : Geo) (ibox : Nat) : Nat := dirs.foldl (fun n mu => n * boxSize g ibox mu) 1

/-! ### division of the boxes in sets -/

/-- What is built by the initialisation of the geometry: the sites of the sets, one after the other, and their number -/
structure Geom where
  /-- `ivol_of_box_dir_par`, as far as it is filled -/
  ivol : List Nat
  /-- `nsite_per_box_dir_par` -/
  nsite : Nat → Nat

/-- `par+gpar*(dir+NDIM*ibox)` -/
def slot (gpar : Nat) (t : Nat × Dir × Nat) : Nat := t.2.2 + gpar * (t.2.1.val + 4 * t.1)
/-- The three nested loops over box, direction and parity -/
def triples (gpar : Nat) : List (Nat × Dir × Nat) :=
  (List.range 16).flatMap fun ibox => dirs.flatMap fun dir => (List.range gpar).map fun par => (ibox, dir, par)
/-- Local coordinates of the site `isub` of the box.  `/repo/src/operations/su3_paths/gauge_sweeper.cpp:76-81` -/
def siteOf (g : Geo) (ibox isub : Nat) : Coords := fun mu =>
  boxSize g 0 mu * boxCoord ibox mu + coordOfLx isub (boxSize g ibox) mu
/-- Body of the loop on the sites; `none` is the crash.  `/repo/src/operations/su3_paths/gauge_sweeper.cpp:74-91` -/
def siteStep (g : Geo) (gpar : Nat) (parComp : Coords → Dir → Int) (t : Nat × Dir × Nat) (s : Geom) (isub : Nat) : Option Geom :=
  let x := siteOf g t.1 isub
  let p := parComp x t.2.1
  if (gpar : Int) ≤ p ∨ p < 0 then none
  else if p = t.2.2 then
    some ⟨s.ivol ++ [lxOfCoord x g.loc], Function.update s.nsite (slot gpar t) (s.nsite (slot gpar t) + 1)⟩
  else some s
/-- `init_box_dir_par_geometry`; `n0` is the content of the newly allocated memory.
`/repo/src/operations/su3_paths/gauge_sweeper.cpp:55-95` -/
def initGeom (g : Geo) (gpar : Nat) (parComp : Coords → Dir → Int) (n0 : Nat → Nat) : Option Geom :=
  (triples gpar).foldlM (fun s t =>
    (List.range (nsitePerBox g t.1)).foldlM (siteStep g gpar parComp t) ⟨s.ivol, Function.update s.nsite (slot gpar t) 0⟩) ⟨[], n0⟩

/-- The loop that visits the links, set by set, as in `check_hit_exactly_once`, `check_hit_in_the_exact_order` and in the (now
disabled) sweep: number of sites already visited, and links visited.  `/repo/src/operations/su3_paths/gauge_sweeper.cpp:103-115` -/
def visitLoop (gpar : Nat) (s : Geom) : Nat × List (Nat × Dir) :=
  (triples gpar).foldl (fun a t => (a.1 + s.nsite (slot gpar t),
    a.2 ++ (List.range (s.nsite (slot gpar t))).map (fun k => (s.ivol.getD (k + a.1) 0, t.2.1)))) (0, [])
/-- The sequence of the links visited -/
def visits (gpar : Nat) (s : Geom) : List (Nat × Dir) := (visitLoop gpar s).2
/-- `check_hit_exactly_once`: `true` if the program goes on.  `/repo/src/operations/su3_paths/gauge_sweeper.cpp:97-125` -/
def checkHitExactlyOnce (g : Geo) (gpar : Nat) (s : Geom) : Bool :=
  match (visits gpar s).foldlM (fun (hit : Nat × Dir → Nat) v => if g.locVol ≤ v.1 then none else some (Function.update hit v (hit v + 1)))
      (fun _ => 0) with
  | none => false
  | some hit => (List.range g.locVol).all fun ivol => dirs.all fun mu => hit (ivol, mu) == 1

/-- `Wilson_par`.  `/repo/src/operations/su3_paths/gauge_sweeper.cpp:589-597` -/
def Wilson_par (x : Coords) (dir : Dir) : Int := (dirs.foldl (fun (p : Int) mu => p + x mu) 0) % 2
/-- `Symanzik_par`.  `/repo/src/operations/su3_paths/gauge_sweeper.cpp:352-361` -/
def Symanzik_par (x : Coords) (dir : Dir) : Int := (dirs.foldl (fun (p : Int) mu => p + (if mu = dir then 2 else 1) * x mu) 0) % 4

/-! ### links required -/

/-- Coordinates of a point of the plane `(mu,nu)`: all the other components are those of `A` -/
def pt (A : Coords) (mu nu : Dir) (a b : Nat) : Coords := Function.update (Function.update A mu a) nu b

/-- Links asked by `add_Wilson_staples` for the direction `nu`, in the order of `ilink_to_be_used`.
`/repo/src/operations/su3_paths/gauge_sweeper.cpp:600-633` -/
def wilsonLinksNu (L : Coords) (A : Coords) (mu nu : Dir) : List (Coords × Dir) :=
  let up := (A mu + 1) % L mu
  let bw := (A nu + L nu - 1) % L nu
  let fw := (A nu + 1) % L nu
  let J := pt A mu nu (A mu) bw
  let G := pt A mu nu up bw
  let F := pt A mu nu up (A nu)
  let B := pt A mu nu (A mu) fw
  [(J, nu), (J, mu), (G, nu), (A, nu), (B, mu), (F, nu)]
/-- All the links asked by `add_Wilson_staples` -/
def wilsonLinks (L : Coords) (A : Coords) (mu : Dir) : List (Coords × Dir) := (Geo.perpDirs mu).flatMap (wilsonLinksNu L A mu)

/-- Links asked by `add_Symanzik_staples` for the direction `nu`.
`/repo/src/operations/su3_paths/gauge_sweeper.cpp:363-443` -/
def symanzikLinksNu (L : Coords) (A : Coords) (mu nu : Dir) : List (Coords × Dir) :=
  let dw := (A mu + L mu - 1) % L mu
  let up := (A mu + 1) % L mu
  let upup := (A mu + 2) % L mu
  let bwbw := (A nu + L nu - 2) % L nu
  let bw := (bwbw + 1) % L nu
  let fw := (A nu + 1) % L nu
  let fwfw := (A nu + 2) % L nu
  let K := pt A mu nu dw bw
  let Lp := pt A mu nu dw (A nu)
  let M := pt A mu nu dw fw
  let I := pt A mu nu (A mu) bwbw
  let J := pt A mu nu (A mu) bw
  let B := pt A mu nu (A mu) fw
  let C := pt A mu nu (A mu) fwfw
  let E := pt A mu nu up fw
  let F := pt A mu nu up (A nu)
  let G := pt A mu nu up bw
  let H := pt A mu nu up bwbw
  let O := pt A mu nu upup (A nu)
  let P := pt A mu nu upup bw
  [(J, nu), (J, mu), (G, nu), (A, nu), (B, mu), (F, nu),
   (K, nu), (K, mu), (J, mu), (G, nu),
   (J, nu), (I, nu), (I, mu), (H, nu), (G, nu),
   (G, mu), (P, nu),
   (Lp, nu), (M, mu), (B, mu), (F, nu),
   (A, nu), (B, nu), (C, mu), (E, nu), (F, nu),
   (E, mu), (O, nu)]
/-- All the links asked by `add_Symanzik_staples`: the two last are common to all the rectangles.
`/repo/src/operations/su3_paths/gauge_sweeper.cpp:363-450` -/
def symanzikLinks (L : Coords) (A : Coords) (mu : Dir) : List (Coords × Dir) :=
  (Geo.perpDirs mu).flatMap (symanzikLinksNu L A mu) ++
    [(Function.update A mu ((A mu + 1) % L mu), mu), (Function.update A mu ((A mu + L mu - 1) % L mu), mu)]

/-- `all_to_all_gathering_list_t::add_conf_link_for_paths`: the list is a map from the key to the position.  The two
components of the pair returned by `getLoclxAndRankOfCoords` (rank and local site) are bound to `ivol` and to `irank`.
Simplified: the map is not sorted.  `/repo/src/communicate/all_to_all.cpp:411-440`, `/repo/src/geometry/geometry_lx.hpp:343-357` -/
def addConfLink (g : Geo) (rank : Nat) (gl : A2A.ScatterList) (l : Coords × Dir) : A2A.ScatterList × Nat :=
  let ivol := (getLoclxAndRankOfCoords g l.1).1
  let irank := (getLoclxAndRankOfCoords g l.1).2
  let ilink := 4 * ivol + l.2.val
  if irank = rank then (gl, ilink)
  else
    let key := ilink * g.nranks + irank
    match gl.find? (fun e => e.2 = key) with
    | some e => (gl, e.1)
    | none => (gl ++ [(4 * g.locVol + gl.length, key)], 4 * g.locVol + gl.length)
/-- Addition of all the links needed by one link: the list, and the indices of the links -/
def addLinks (g : Geo) (rank : Nat) (gl : A2A.ScatterList) (ls : List (Coords × Dir)) : A2A.ScatterList × List Nat :=
  ls.foldl (fun a l => ((addConfLink g rank a.1 l).1, a.2 ++ [(addConfLink g rank a.1 l).2])) (gl, [])
/-- List of the links of other ranks needed by the box `ibox`.  `/repo/src/operations/su3_paths/gauge_sweeper.cpp:302-328` -/
def boxGather (g : Geo) (rank gpar : Nat) (links : Coords → Dir → List (Coords × Dir)) (s : Geom) (ibox : Nat) : A2A.ScatterList :=
  let ibase := ((List.range ibox).foldl (fun n j => n + nsitePerBox g j) 0) * 4
  ((dirs.flatMap fun dir => (List.range gpar).map fun par => (dir, par)).foldl (fun (a : Nat × A2A.ScatterList) dp =>
    let n := s.nsite (slot gpar (ibox, dp.1, dp.2))
    (a.1 + n, (List.range n).foldl (fun gl k =>
      let A := (glbCoordOfLoclx g (coordOfLx rank g.R) (s.ivol.getD (a.1 + k) 0)).getD (fun _ => 0)
      (addLinks g rank gl (links A dp.1)).1) a.2)) (ibase, [])).2
/-- `init_staples` up to the check on the size of the cache, on the rank `rank`; `none` is the crash.
`/repo/src/operations/su3_paths/gauge_sweeper.cpp:197-231` -/
def initStaples (g : Geo) (gpar : Nat) (links : Coords → Dir → List (Coords × Dir)) (s : Geom) (junk : Nat → Nat) (rank : Nat) :
    Option (Nat → A2A.Comm) :=
  ((List.range 16).foldlM (fun (a : Nat × (Nat → A2A.Comm)) ibox =>
    (A2A.setupAsk g.nranks (fun r => boxGather g r gpar links s ibox) junk rank).map
      (fun c => (max a.1 c.nelIn, Function.update a.2 ibox c))) (0, fun _ => A2A.part1 0 (fun _ => 0) (fun _ => 0))).bind fun a =>
  if g.bordVol + g.edgeVol < a.1 then none else some a.2

/-! ### staples -/

/-- `compute_Wilson_staples`, `compute_Wilson_staples_packed`: `l k` is the `k`-th link of the list.
`/repo/src/operations/su3_paths/gauge_sweeper.cpp:636-671` -/
def computeWilson (l : Nat → M3) : M3 :=
  ([0, 1, 2] : List Nat).foldl (fun st inu =>
    let l := fun k => l (6 * inu + k)
    let hb := (l 0)ᴴ * l 1
    let st := st + hb * l 2
    let hf := l 3 * l 4
    st + hf * (l 5)ᴴ) 0

/-- Only the two first rows are written -/
def rows2 (junk new : M3) : M3 := fun i j => if i.val < 2 then new i j else junk i j
/-- `unsafe_su3_dag_prod_su3(a,b,c,2)`: two rows, and only two terms in the sums.  `/repo/src/new_types/su3_op.hpp:968-982` -/
def dagProd2 (junk b c : M3) : M3 := rows2 junk (fun i j => (starRingEnd ℂ) (b 0 i) * c 0 j + (starRingEnd ℂ) (b 1 i) * c 1 j)
/-- `unsafe_su3_prod_su3(a,b,c,2)`.  `/repo/src/new_types/su3_op.hpp:883-896` -/
def prod2 (junk b c : M3) : M3 := rows2 junk (b * c)
/-- `unsafe_su3_prod_su3_dag(a,b,c,2)`.  `/repo/src/new_types/su3_op.hpp:1003-1015` -/
def prodDag2 (junk b c : M3) : M3 := rows2 junk (b * cᴴ)
/-- `unsafe_su3_dag_prod_su3_dag(a,b,c,2)`.  `/repo/src/new_types/su3_op.hpp:1062-1074` -/
def dagProdDag2 (junk b c : M3) : M3 := rows2 junk (bᴴ * cᴴ)

/-- Sums accumulated by `compute_Symanzik_staples` -/
structure Acc where
  squares : M3
  rectangles : M3
  up : M3
  dw : M3

/-- Body of the loop of `compute_Symanzik_staples`; the third row of the temporaries holds anything.
`/repo/src/operations/su3_paths/gauge_sweeper.cpp:462-503` -/
def symanzikStep (j1 j2 : M3) (l : Nat → M3) (a : Acc) : Acc :=
  let hb := (l 0)ᴴ * l 1
  let a := { a with squares := a.squares + hb * l 2 }
  let hf := l 3 * l 4
  let a := { a with squares := a.squares + hf * (l 5)ᴴ }
  -- backward dw rectangle
  let temp2 := dagProd2 j2 (l 6) (l 7)
  let temp1 := su3_build_third_row (prod2 j1 temp2 (l 8))
  let a := { a with dw := a.dw + temp1 * l 9 }
  -- backward backward rectangle
  let temp1 := dagProdDag2 temp1 (l 10) (l 11)
  let temp2 := prod2 temp2 temp1 (l 12)
  let temp1 := su3_build_third_row (prod2 temp1 temp2 (l 13))
  let a := { a with rectangles := a.rectangles + temp1 * l 14 }
  -- backward up rectangle
  let temp2 := hb * l 15
  let a := { a with up := a.up + temp2 * l 16 }
  -- forward dw rectangle
  let temp2 := prod2 temp2 (l 17) (l 18)
  let temp1 := su3_build_third_row (prod2 temp1 temp2 (l 19))
  let a := { a with dw := a.dw + temp1 * (l 20)ᴴ }
  -- forward forward rectangle
  let temp1 := prod2 temp1 (l 21) (l 22)
  let temp2 := prod2 temp2 temp1 (l 23)
  let temp1 := su3_build_third_row (prodDag2 temp1 temp2 (l 24))
  let a := { a with rectangles := a.rectangles + temp1 * (l 25)ᴴ }
  -- forward up rectangle
  let temp2 := hf * l 26
  { a with up := a.up + temp2 * (l 27)ᴴ }

/-- `get_C0`.  `/repo/src/hmc/gauge/Symanzik_action.hpp:15-18` -/
noncomputable def get_C0 (C1 : ℝ) : ℝ := 1 - 8 * C1
/-- `compute_Symanzik_staples`, `compute_Symanzik_staples_packed`; `j inu` are the contents of the temporaries.
`/repo/src/operations/su3_paths/gauge_sweeper.cpp:452-512` -/
noncomputable def computeSymanzik (j : Nat → M3 × M3) (l : Nat → M3) (C1 : ℝ) : M3 :=
  let a := ([0, 1, 2] : List Nat).foldl (fun a inu => symanzikStep (j inu).1 (j inu).2 (fun k => l (28 * inu + k)) a) ⟨0, 0, 0, 0⟩
  let l := fun k => l (28 * 3 + k)
  let rectangles := a.rectangles + a.up * (l 0)ᴴ
  let rectangles := rectangles + (l 1)ᴴ * a.dw
  (get_C0 C1 : ℂ) • a.squares + (C1 : ℂ) • rectangles

/-! ### choice of the sweeper -/

/-- `gauge_action_name_t` -/
inductive Action
  | unspec | wilson | tlsym | iwasaki
  deriving DecidableEq

/-- `get_sweeper`: number of parities of the sweeper returned, and coefficient of the rectangles; `none` is the crash.  The
case of the tree level Symanzik action continues in the following one.  `/repo/src/operations/su3_paths/gauge_sweeper.hpp:138-169` -/
noncomputable def get_sweeper : Action → Option (Nat × ℝ)
  | .wilson => some (2, 0)
  | .tlsym =>
    let _C1 : ℝ := -1.0 / 12
    some (4, -0.331)
  | .iwasaki => some (4, -0.331)
  | .unspec => none

end Nissa.Sweep
