import Verif.Stencil.Paths
import Verif.Stencil.Plaquette

/-! # Squared and rectangular staples, with the communications overlapped to the computation

`/repo/src/operations/su3_paths/squared_staples.cpp:88-323`, `/repo/src/operations/su3_paths/rectangular_staples.cpp`,
`/repo/src/geometry/geometry_lx.cpp:456-488`.

The staples are computed without the edges of the configuration: the forward halo of the configuration is received from the
forward neighbours, the backward staples of the sites on the backward surface are computed by the backward neighbour (who
stores them in its own halo) and sent.  The memory of all the ranks is explicit: the halo of the configuration holds anything
at the beginning (`jc`), so do the staples (`out0`), the buffers (`jb`) and whatever a receive did not fill (`jq`).  The loops
over the sites run in any order (`sched`). -/

set_option linter.all false

namespace Nissa.Stap
open Nissa.Lx Nissa.Sten Nissa.Gauge Nissa.Paths Nissa.Su3f
open Matrix

/-- Index of a staple in memory: site, direction of the link, component (0-2 backward, 3-5 forward).
`squared_staples_t`, `/repo/src/operations/su3_paths/squared_staples.hpp:13` -/
abbrev Key := Nat × Dir × Fin 6
/-- Memory of the staples of a rank -/
abbrev Stap := Key → M3

/-- A sequence of writes -/
def wr {K V : Type} [DecidableEq K] (W : List (K × V)) (m : K → V) : K → V := W.foldl (fun m w => Function.update m w.1 w.2) m

/-- `perpDirs[mu][inu]`.  `/repo/src/geometry/geometry_lx.hpp:231` -/
def pd (mu : Dir) (inu : Fin 3) : Dir := (Geo.perpDirs mu).getD inu.val 0
/-- `inu=(nu<mu)?nu:nu-1`.  `/repo/src/operations/su3_paths/squared_staples.cpp:189` -/
def inuOf (nu mu : Dir) : Fin 3 := if nu < mu then Fin.ofNat 3 nu.val else Fin.ofNat 3 (nu.val - 1)
/-- Component of the backward staple -/
def bwc (inu : Fin 3) : Fin 6 := ⟨inu.val, by omega⟩
/-- Component `3+inu` of the forward staple -/
def fwc (inu : Fin 3) : Fin 6 := ⟨3 + inu.val, by omega⟩

/-! ### Tables of the surface -/

/-- `is_non_fw_surf` at the end of the loop over directions.  `/repo/src/geometry/geometry_lx.cpp:465-471` -/
def isNonFwSurf (g : Geo) (ivol : Nat) : Bool :=
  dirs.all fun mu => !(g.isPar mu && ((locCoordOfLoclx g ivol).getD (fun _ => 0) mu == (g.loc mu : Int) - 1))
/-- `is_non_bw_surf` -/
def isNonBwSurf (g : Geo) (ivol : Nat) : Bool :=
  dirs.all fun mu => !(g.isPar mu && ((locCoordOfLoclx g ivol).getD (fun _ => 0) mu == 0))
/-- `is_bulk` -/
def isBulk (g : Geo) (ivol : Nat) : Bool :=
  dirs.all fun mu => !(g.isPar mu && (((locCoordOfLoclx g ivol).getD (fun _ => 0) mu == (g.loc mu : Int) - 1) ||
    ((locCoordOfLoclx g ivol).getD (fun _ => 0) mu == 0)))
/-- `loclxOfNonFwSurflx`.  `/repo/src/geometry/geometry_lx.cpp:476` -/
def nonFwSurf (g : Geo) : List Nat := (List.range g.locVol).filter (isNonFwSurf g)
/-- `loclxOfFwSurflx`.  `/repo/src/geometry/geometry_lx.cpp:477` -/
def fwSurf (g : Geo) : List Nat := (List.range g.locVol).filter (fun i => !isNonFwSurf g i)
/-- `loclxOfNonBwSurflx`, `loclxOfBwSurflx`, `loclxOfBulklx`, `loclxOfSurflx`.  `/repo/src/geometry/geometry_lx.cpp:474-479` -/
def nonBwSurf (g : Geo) : List Nat := (List.range g.locVol).filter (isNonBwSurf g)
def bwSurf (g : Geo) : List Nat := (List.range g.locVol).filter (fun i => !isNonBwSurf g i)
def bulk (g : Geo) : List Nat := (List.range g.locVol).filter (isBulk g)
def surf (g : Geo) : List Nat := (List.range g.locVol).filter (fun i => !isBulk g i)

/-- `nonFwSurfVol`, `nonBwSurfVol`.  `/repo/src/base/init.cpp:639-652` -/
def nonFwSurfVol (g : Geo) : Nat := dirs.foldl (fun v mu => if g.isPar mu then v * (g.loc mu - 1) else v * g.loc mu) 1
/-- `bulkVol`.  `/repo/src/base/init.cpp:639-652` -/
def bulkVol (g : Geo) : Nat := dirs.foldl (fun v mu => if g.isPar mu then v * (g.loc mu - 2) else v * g.loc mu) 1

/-! ### The loops -/

/-- The loops over link direction, staple direction and sites of a list; `key` and `val` are the element written and its
value.  `sched mu inu` is the order in which the sites are visited. -/
def loopW (sched : Dir → Fin 3 → List Nat → List Nat) (sites : List Nat) (key : Dir → Fin 3 → Nat → Key) (val : Dir → Fin 3 → Nat → M3) :
    List (Key × M3) :=
  dirs.flatMap fun mu => ([0, 1, 2] : List (Fin 3)).flatMap fun inu => (sched mu inu sites).map fun A => (key mu inu A, val mu inu A)

/-- Forward staples of the sites `A` of a list: steps 2 and 6.
`/repo/src/operations/su3_paths/squared_staples.cpp:112-134,243-266`, `/repo/src/operations/su3_paths/rectangular_staples.cpp:70-101,218-249` -/
def fwLoop (sched : Dir → Fin 3 → List Nat → List Nat) (sites : List Nat) (fw : Dir → Fin 3 → Nat → M3) : List (Key × M3) :=
  loopW sched sites (fun mu inu A => (A, mu, fwc inu)) fw

/-- Backward staples obtained scanning `D`, stored at `A=loclxNeighup[D][nu]`: steps 4 (first part) and 5.
`/repo/src/operations/su3_paths/squared_staples.cpp:155-178,215-240`, `/repo/src/operations/su3_paths/rectangular_staples.cpp:134-162,187-216` -/
def bwLoop (g : Geo) (r : Coords) (ji : Nat) (sched : Dir → Fin 3 → List Nat → List Nat) (sites : List Nat) (bw : Dir → Fin 3 → Nat → M3) :
    List (Key × M3) :=
  loopW sched sites (fun mu inu D => (upT g r ji D (pd mu inu), mu, bwc inu)) bw

/-- The triples of the loops over the parallelized directions, the perpendicular directions and a half of the border.
`/repo/src/operations/su3_paths/squared_staples.cpp:182-205` -/
def bordTrip (g : Geo) (half : Nat) : List (Dir × Dir × Nat) :=
  dirs.flatMap fun nu => if g.isPar nu then
    (Geo.perpDirs nu).flatMap fun mu => (List.range (g.bordDirVol nu)).map fun k => (nu, mu, half * g.bordVolh + g.bordOffset nu + k)
  else []

/-- Copy of the backward staples in the sending buffer (step 4, second part): `sb[ibord][mu]=out[locVol+ibord][mu][inu]`.
`/repo/src/operations/su3_paths/squared_staples.cpp:180-205`, `/repo/src/operations/su3_paths/rectangular_staples.cpp:164-182` -/
def bwSendBuf (g : Geo) (out : Stap) (jb : Nat × Dir → M3) : Nat × Dir → M3 :=
  wr ((bordTrip g 1).map fun t => ((t.2.2, t.2.1), out (g.locVol + t.2.2, t.2.1, bwc (inuOf t.1 t.2.1)))) jb

/-- Exchange of `quad_su3` along the orientation `o`: `startBufHaloNeighExchange<quad_su3>(1,{{o,0},{o,1},{o,2},{o,3}})` and
the following wait; `jq` is what is found where nothing was received -/
def exchange (g : Geo) (o : Fin 2) (sb : Coords → Nat → Quad) (jq : Quad) (r : Coords) (i : Nat) : Quad :=
  ((haloRecvBuf g 1 (fun p _ => p == o) (fun r i => some (sb r i)) r).bind (fun b => b i)).getD jq

/-- Copy of the received backward staples on the sites of the backward surface (step 7).
`/repo/src/operations/su3_paths/squared_staples.cpp:269-295`, `/repo/src/operations/su3_paths/rectangular_staples.cpp:251-277` -/
def bwFinish (g : Geo) (r : Coords) (ji : Nat) (rb : Nat → Quad) (out : Stap) : Stap :=
  wr ((bordTrip g 0).map fun t => (((surflxOfBordlx g r t.2.2).getD ji, t.2.1, bwc (inuOf t.1 t.2.1)), rb t.2.2 t.2.1)) out

/-- Steps 2 and 4-7, common to squares and rectangles, on all the ranks.  `fw0` is the forward staple computed with the memory
found before the end of the first communication, `fw1` and `bw1` after it.
`/repo/src/operations/su3_paths/squared_staples.cpp:298-313`, `/repo/src/operations/su3_paths/rectangular_staples.cpp:280-299` -/
def overlapped (g : Geo) (ji : Nat) (sched : Nat → Dir → Fin 3 → List Nat → List Nat) (fw0 fw1 bw1 : Coords → Dir → Fin 3 → Nat → M3)
    (jb : Coords → Nat × Dir → M3) (jq : Quad) (out0 : Coords → Stap) (r : Coords) : Stap :=
  let o2 := fun r => wr (fwLoop (sched 2) (nonFwSurf g) (fw0 r)) (out0 r)
  let o4 := fun r => wr (bwLoop g r ji (sched 4) (fwSurf g) (bw1 r)) (o2 r)
  let sb := fun r i mu => bwSendBuf g (o4 r) (jb r) (i, mu)
  let o5 := fun r => wr (bwLoop g r ji (sched 5) (nonFwSurf g) (bw1 r)) (o4 r)
  let o6 := fun r => wr (fwLoop (sched 6) (fwSurf g) (fw1 r)) (o5 r)
  bwFinish g r ji (exchange g 1 sb jq r) (o6 r)

/-! ### Squares -/

/-- `conf` on a rank before the exchange: only the local part is meaningful -/
def confMem0 (g : Geo) (U : Nat → Nat → Quad) (jc : Coords → Nat → Quad) (r : Coords) (i : Nat) : Quad :=
  if i < g.locVol then U (lxOfCoord r g.R) i else jc r i

/-- Sending buffer of step 1: the lower surface in the first half.
`/repo/src/operations/su3_paths/squared_staples.cpp:92-104` -/
def confSendBuf (g : Geo) (ji : Nat) (U : Nat → Nat → Quad) (jc : Coords → Nat → Quad) (jb : Coords → Nat → Quad) (r : Coords) (i : Nat) : Quad :=
  if i < g.bordVolh then confMem0 g U jc r ((surflxOfBordlx g r i).getD ji) else jb r i

/-- `conf` after step 3: the second half of the receiving buffer is copied on the forward halo.
`/repo/src/operations/su3_paths/squared_staples.cpp:136-152` -/
def confMem1 (g : Geo) (ji : Nat) (U : Nat → Nat → Quad) (jc jb : Coords → Nat → Quad) (jq : Quad) (r : Coords) (i : Nat) : Quad :=
  if g.locVol + g.bordVolh ≤ i ∧ i < g.locVol + g.bordVolh + g.bordVolh then
    exchange g 0 (confSendBuf g ji U jc jb) jq r (g.bordVolh + (i - (g.locVol + g.bordVolh)))
  else confMem0 g U jc r i

/-- `su3 temp; temp=conf[A][nu]*conf[B][mu]; temp*conf[F][nu]^dag`.  `/repo/src/operations/su3_paths/squared_staples.cpp:128-131,259-263` -/
def sqFw (conf : Nat → Quad) (up : Nat → Dir → Nat) (mu : Dir) (inu : Fin 3) (A : Nat) : M3 :=
  let nu := pd mu inu
  let B := up A nu
  let F := up A mu
  let temp := conf A nu * conf B mu
  temp * (conf F nu)ᴴ

/-- `temp=conf[D][nu]^dag*conf[D][mu]; temp*conf[E][nu]`.  `/repo/src/operations/su3_paths/squared_staples.cpp:172-176,233-237` -/
def sqBw (conf : Nat → Quad) (up : Nat → Dir → Nat) (mu : Dir) (inu : Fin 3) (D : Nat) : M3 :=
  let nu := pd mu inu
  let E := up D mu
  let temp := (conf D nu)ᴴ * conf D mu
  temp * conf E nu

/-- `compute_squared_staples_lx_conf`.  `/repo/src/operations/su3_paths/squared_staples.cpp:297-313` -/
def compute_squared_staples_lx_conf (g : Geo) (ji : Nat) (sched : Nat → Dir → Fin 3 → List Nat → List Nat) (jc jb : Coords → Nat → Quad)
    (jb' : Coords → Nat × Dir → M3) (jq : Quad) (U : Nat → Nat → Quad) (out0 : Coords → Stap) (r : Coords) : Stap :=
  overlapped g ji sched
    (fun r => sqFw (confMem0 g U jc r) (upT g r ji))
    (fun r => sqFw (confMem1 g ji U jc jb jq r) (upT g r ji))
    (fun r => sqBw (confMem1 g ji U jc jb jq r) (upT g r ji)) jb' jq out0 r

/-- Sum of the six staples of a link, first to last.  `/repo/src/operations/su3_paths/squared_staples.cpp:325-336`,
`/repo/src/operations/su3_paths/rectangular_staples.cpp:310-324` -/
def summed (s : Stap) (ivol : Nat) (mu : Dir) : M3 :=
  ([1, 2, 3, 4, 5] : List (Fin 6)).foldl (fun o iterm => o + s (ivol, mu, iterm)) (s (ivol, mu, 0))

/-! ### Rectangles -/

/-- Sending buffer of the forward squared staples of the lower surface (step 1).
`/repo/src/operations/su3_paths/rectangular_staples.cpp:36-59` -/
def sqSendBuf (g : Geo) (ji : Nat) (sq : Coords → Stap) (jb : Coords → Nat × Dir → M3) (r : Coords) : Nat × Dir → M3 :=
  wr ((bordTrip g 0).map fun t => ((t.2.2, t.2.1), sq r ((surflxOfBordlx g r t.2.2).getD ji, t.2.1, fwc (inuOf t.1 t.2.1)))) (jb r)

/-- The squared staples after step 3: `sq_staples[locVol+ibord][mu][3+inu]=rb[ibord][mu]`.
`/repo/src/operations/su3_paths/rectangular_staples.cpp:104-130` -/
def sqMem1 (g : Geo) (ji : Nat) (sq : Coords → Stap) (jb : Coords → Nat × Dir → M3) (jq : Quad) (r : Coords) : Stap :=
  wr ((bordTrip g 1).map fun t => ((g.locVol + t.2.2, t.2.1, fwc (inuOf t.1 t.2.1)),
    exchange g 0 (fun r i mu => sqSendBuf g ji sq jb r (i, mu)) jq r t.2.2 t.2.1)) (sq r)

/-- `COMPUTE_POINT_RECT_FW_STAPLES`.  `/repo/src/operations/su3_paths/rectangular_staples.cpp:12-22` -/
def rectFw (conf : Nat → Quad) (sq : Stap) (up : Nat → Dir → Nat) (mu : Dir) (inu : Fin 3) (A : Nat) : M3 :=
  let nu := pd mu inu
  let imu := inuOf mu nu
  let B := up A nu
  let F := up A mu
  let o1 := sq (A, nu, bwc imu) * conf B mu * (conf F nu)ᴴ
  let o2 := o1 + conf A nu * sq (B, mu, fwc inu) * (conf F nu)ᴴ
  o2 + conf A nu * conf B mu * (sq (F, nu, fwc imu))ᴴ

/-- `COMPUTE_POINT_RECT_BW_STAPLES`.  `/repo/src/operations/su3_paths/rectangular_staples.cpp:24-34` -/
def rectBw (conf : Nat → Quad) (sq : Stap) (up : Nat → Dir → Nat) (mu : Dir) (inu : Fin 3) (D : Nat) : M3 :=
  let nu := pd mu inu
  let imu := inuOf mu nu
  let E := up D mu
  let o1 := (sq (D, nu, bwc imu))ᴴ * conf D mu * conf E nu
  let o2 := o1 + (conf D nu)ᴴ * sq (D, mu, bwc inu) * conf E nu
  o2 + (conf D nu)ᴴ * conf D mu * sq (E, nu, fwc imu)

/-- `compute_rectangular_staples_lx_conf`, called with the configuration and the squared staples left in memory by
`compute_squared_staples_lx_conf` (that is how all the callers use it: `conf` has its forward halo filled, `sq` has not).
`/repo/src/operations/su3_paths/rectangular_staples.cpp:280-299` -/
def compute_rectangular_staples_lx_conf (g : Geo) (ji : Nat) (sched : Nat → Dir → Fin 3 → List Nat → List Nat) (conf : Coords → Nat → Quad)
    (sq : Coords → Stap) (jb jb' : Coords → Nat × Dir → M3) (jq : Quad) (out0 : Coords → Stap) (r : Coords) : Stap :=
  overlapped g ji sched
    (fun r => rectFw (conf r) (sq r) (upT g r ji))
    (fun r => rectFw (conf r) (sqMem1 g ji sq jb jq r) (upT g r ji))
    (fun r => rectBw (conf r) (sqMem1 g ji sq jb jq r) (upT g r ji)) jb' jq out0 r

end Nissa.Stap
