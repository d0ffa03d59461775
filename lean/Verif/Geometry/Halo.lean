/-
Model of the halo and edges exchange on all the ranks at once. `dc` is the `divCoeff` of the field: 1 for full fields, 2 for fields
defined on one parity (field.hpp:667).
Source: /repo/src/base/field.cpp:11-118, /repo/src/base/field.hpp:1147-1230.
MPI is modelled by the list of all the messages sent, in program order of each rank; a receive takes the first message with the
requested source, destination and tag (MPI non-overtaking rule). A slot of the buffers stands for one site (the `bps` bytes of it).
-/
import Verif.Geometry.Tables

namespace Nissa.Lx
open Geo

structure Msg (V : Type) where
  src : Nat
  dst : Nat
  tag : Nat
  data : Nat → V

/-- all the rank coordinates -/
def allRanks (g : Geo) : List Coords := (List.range g.nranks).map (fun rk => coordOfLx rk g.R)

/-- copy `len` slots of `data` into `buf` starting from `off` -/
def blockWrite {V : Type} (buf : Nat → Option V) (off len : Nat) (data : Nat → Option V) : Nat → Option V :=
  fun i => if off ≤ i ∧ i < off + len then data (i - off) else buf i

/-- The (mu, sendOri) pairs visited by startBufHaloNeighExchange, field.cpp:18-23; `sel` is the optional selection
(`dirs` argument, `(sendOri,mu)` pairs), `fun _ _ => true` when absent -/
def haloPairs (g : Geo) (sel : Fin 2 → Dir → Bool) : List (Dir × Fin 2) :=
  dirs.flatMap (fun mu => if g.isPar mu then
    (([0, 1] : List (Fin 2)).filter (fun o => sel o mu)).map (fun o => (mu, o)) else [])

/-- messageTag, field.cpp:29 -/
def haloTag (p : Dir × Fin 2) : Nat := p.2.val + 2 * p.1.val

/-- offset, field.cpp:35-36, in units of sites: the byte offset is `(...)*bps/divCoeff` -/
def haloOff (g : Geo) (dc : Nat) (mu : Dir) (ori : Fin 2) : Nat := (g.bordOffset mu + g.bordVolh * ori.val) / dc

/-- messageLength in units of sites, field.cpp:41-42 -/
def haloLen (g : Geo) (dc : Nat) (mu : Dir) : Nat := g.bordDirVol mu / dc

/-- the sends of field.cpp:55 on all ranks -/
def haloMsgs {V : Type} (g : Geo) (dc : Nat) (sel : Fin 2 → Dir → Bool) (sb : Coords → Nat → Option V) : List (Msg (Option V)) :=
  (allRanks g).flatMap (fun r => (haloPairs g sel).map (fun p =>
    { src := lxOfCoord r g.R, dst := lxOfCoord (rankNeigh g r p.2 p.1) g.R, tag := haloTag p,
      data := fun k => sb r (haloOff g dc p.1 p.2 + k) }))

/-- one receive, field.cpp:56; the outer `none` means that no message matches (the wait never ends) -/
def haloRecvStep {V : Type} (g : Geo) (dc : Nat) (msgs : List (Msg (Option V))) (r : Coords) (st : Option (Nat → Option V)) (p : Dir × Fin 2) :
    Option (Nat → Option V) :=
  st.bind (fun buf =>
    let recvOri := 1 - p.2
    (msgs.find? (fun m => m.src = lxOfCoord (rankNeigh g r recvOri p.1) g.R ∧ m.dst = lxOfCoord r g.R ∧ m.tag = haloTag p)).map
      (fun m => blockWrite buf (haloOff g dc p.1 recvOri) (haloLen g dc p.1) m.data))

/-- receive buffer of rank `r` after all the receives completed; initial content unspecified (`none`) -/
def haloRecvBuf {V : Type} (g : Geo) (dc : Nat) (sel : Fin 2 → Dir → Bool) (sb : Coords → Nat → Option V) (r : Coords) : Option (Nat → Option V) :=
  (haloPairs g sel).foldl (haloRecvStep g dc (haloMsgs g dc sel sb) r) (some (fun _ => none))

/-- fillSendingBufWithSurface, field.hpp:1148-1157: slot `i` holds the field at `surflxOfBordlx[i]`.
`F rank site` is the content of the field on all ranks. -/
def surfSendBuf {V : Type} (g : Geo) (F : Nat → Nat → V) (r : Coords) (i : Nat) : Option V :=
  (surflxOfBordlx g r i).map (F (lxOfCoord r g.R))

/-- Content of the halo of a full field after updateHalo: fillHaloWithReceivingBuf, field.hpp:1216-1222 -/
def haloAfterUpdate {V : Type} (g : Geo) (F : Nat → Nat → V) (r : Coords) : Option (Nat → Option V) :=
  haloRecvBuf g 1 (fun _ _ => true) (surfSendBuf g F) r

/-- The (edge, sendOri1, sendOri2) triples of startBufEdgesNeighExchange, field.cpp:69-71,86 -/
def edgeTrip (g : Geo) : List (Edge × Fin 2 × Fin 2) :=
  edges.flatMap (fun e => if g.isPar (edgeDirs e).1 && g.isPar (edgeDirs e).2 then
    [(e, 0, 0), (e, 0, 1), (e, 1, 0), (e, 1, 1)] else [])

/-- messageTag, field.cpp:78 -/
def edgeTag (p : Edge × Fin 2 × Fin 2) : Nat := p.2.2.val + 2 * (p.2.1.val + 2 * p.1.val)

/-- offset, field.cpp:88, in units of sites -/
def edgeOff (g : Geo) (dc : Nat) (e : Edge) (o1 o2 : Fin 2) : Nat := (g.edgeOffset e + g.edgeVol * (o2.val + 2 * o1.val) / 4) / dc

/-- messageLength, field.cpp:90, in units of sites -/
def edgeLen (g : Geo) (dc : Nat) (e : Edge) : Nat := g.edgeDirVol e / dc

/-- field.cpp:111 -/
def edgeMsgs {V : Type} (g : Geo) (dc : Nat) (sb : Coords → Nat → Option V) : List (Msg (Option V)) :=
  (allRanks g).flatMap (fun r => (edgeTrip g).map (fun p =>
    { src := lxOfCoord r g.R, dst := lxOfCoord (rankEdgeNeigh g r p.2.1 p.2.2 p.1) g.R, tag := edgeTag p,
      data := fun k => sb r (edgeOff g dc p.1 p.2.1 p.2.2 + k) }))

/-- field.cpp:108-112 -/
def edgeRecvStep {V : Type} (g : Geo) (dc : Nat) (msgs : List (Msg (Option V))) (r : Coords) (st : Option (Nat → Option V))
    (p : Edge × Fin 2 × Fin 2) : Option (Nat → Option V) :=
  st.bind (fun buf =>
    let o1 := 1 - p.2.1
    let o2 := 1 - p.2.2
    (msgs.find? (fun m => m.src = lxOfCoord (rankEdgeNeigh g r o1 o2 p.1) g.R ∧ m.dst = lxOfCoord r g.R ∧ m.tag = edgeTag p)).map
      (fun m => blockWrite buf (edgeOff g dc p.1 o1 o2) (edgeLen g dc p.1) m.data))

/-- receive buffer after the edges exchange -/
def edgeRecvBuf {V : Type} (g : Geo) (dc : Nat) (sb : Coords → Nat → Option V) (r : Coords) : Option (Nat → Option V) :=
  (edgeTrip g).foldl (edgeRecvStep g dc (edgeMsgs g dc sb) r) (some (fun _ => none))

/-- fillSendingBufWithEdgesSurface, field.hpp:1159-1168 -/
def edgeSendBuf {V : Type} (g : Geo) (F : Nat → Nat → V) (r : Coords) (i : Nat) : Option V :=
  (surflxOfEdgelx g r i).map (F (lxOfCoord r g.R))

/-- content of the edges after updateEdges, field.hpp:1224-1230 -/
def edgesAfterUpdate {V : Type} (g : Geo) (F : Nat → Nat → V) (r : Coords) : Option (Nat → Option V) :=
  edgeRecvBuf g 1 (edgeSendBuf g F) r

end Nissa.Lx
