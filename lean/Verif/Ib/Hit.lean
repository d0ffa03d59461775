import Mathlib.Data.Finset.Basic
import Mathlib.Data.List.Sort
import Mathlib.Data.Prod.Lex
import Mathlib.Order.Basic
import Mathlib.Tactic.Common

/-! # The looper on the hits of `ib`

Models `/repo/projects/ib/hit.hpp` (`HitLooper`): the order in which the propagators and the contractions are computed, when the storage of a
propagator is freed, written to disk and read back.  The content of a propagator is a value of any type `V`, the computation of a propagator any
function of the content of its sources.  Names are elements of any linear order; the two functions building the names of the contractions out of
their index or name are parameters (see `Ib/HitNames.lean` for strings). -/

set_option linter.all false

namespace Nissa.Hit

/-- what the input file asks for -/
structure Plan (N V : Type) where
  /-- `ori_source_name_list` -/
  ori : List N
  /-- `qprop_name_list` -/
  qprops : List N
  /-- the names in `Q[n].source_terms` -/
  sources : N → List N
  /-- `a` and `b` of the elements of `mes2ptsContr` -/
  contr : List (N × N)
  /-- name, `bw` and `fw` of the elements of `handcuffsSides` -/
  sides : List (N × N × N)
  /-- `nMaxPropsAllocated` -/
  nMax : Nat
  /-- content of a propagator given that of the sources: `generate_quark_propagator` -/
  gen : N → List V → V
  /-- `"2pts_"+std::to_string(i)` -/
  tag2 : Nat → N
  /-- `"handcuffSide_"+name` -/
  tagS : N → N

/-- `Status`.  `/repo/projects/ib/hit.hpp:41` -/
inductive Status | NOT_COMPUTED | IN_MEMORY | OFFLOADED
  deriving DecidableEq

/-- how the program stops: a call to CRASH, or the use of a storage which is not allocated, or not any more the one pointed -/
inductive Err | crash | freed
  deriving DecidableEq

/-- the members of `HitLooper` (`/repo/projects/ib/hit.hpp:15-47`), the storage of the propagators and the disk.  The list of keys of the maps is
that of the names, in the order of the input, which does not matter since what is done for each does not depend on the others, or is sorted. -/
structure St (N V : Type) where
  propDep : N → Finset N
  computedProps : Finset N
  computed2pts : Finset Nat
  computedSides : Finset N
  orderedDep : List N
  nPassedDep : Nat
  status : N → Option Status
  offloaded : Finset N
  /-- address and content of `Q[n].sp`, if allocated -/
  mem : N → Option (Nat × V)
  /-- content of the files `prop<name>_...` -/
  disk : N → Option V
  /-- `mes2ptsPropsLib`: the pointers it holds -/
  lib : N → Option Nat
  /-- next address -/
  fresh : Nat
  /-- the meson contractions computed, with the propagators used -/
  out2 : List (Nat × V × V)
  /-- the sides of the handcuffs computed -/
  outS : List (N × V × V)
  /-- not in the code: the largest number of propagators allocated at the same time -/
  peak : Nat

section
variable {N V : Type} [LinearOrder N] (p : Plan N V)

/-- all the names in `Q` -/
def keys : List N := p.ori ++ p.qprops

/-- number of propagators allocated -/
def nAlloc (st : St N V) : Nat := ((keys p).filter fun n => (st.mem n).isSome).length

/-- allocate, if not allocated, and fill.  `alloc_storage`: `/repo/projects/ib/prop.hpp:80-88` -/
def fill (n : N) (v : V) (st : St N V) : St N V :=
  let st : St N V := match st.mem n with
    | some (ad, _) => { st with mem := Function.update st.mem n (some (ad, v)) }
    | none => { st with mem := Function.update st.mem n (some (st.fresh, v)), fresh := st.fresh + 1 }
  { st with peak := max st.peak (nAlloc p st) }

/-- `offloadRecallDelete(name,OFFLOAD)`.  `/repo/projects/ib/hit.hpp:52-104` (the branch 92-103) -/
def offload (n : N) (st : St N V) : Except Err (St N V) :=
  match st.mem n with
  | none => .error .freed
  | some (_, v) =>
    let st := { st with disk := Function.update st.disk n (some v) }
    if st.status n ≠ some .IN_MEMORY then .error .crash
    else .ok { st with mem := Function.update st.mem n none, status := Function.update st.status n (some .OFFLOADED) }

/-- the list of the future dependencies, with the delay; the check that as many are found as loaded is always passed, as both count the propagators
in memory.  `/repo/projects/ib/hit.hpp:150-179` -/
def futureDeps (st : St N V) : Except Err (List (Nat × N)) :=
  ((keys p).filter fun s => st.status s = some .IN_MEMORY).mapM fun s =>
    match (st.orderedDep.drop st.nPassedDep).idxOf? s with
    | some d => .ok (d, s)
    | none => .error .crash

/-- `offloadIfNeededToAccommodate`.  `/repo/projects/ib/hit.hpp:145-194` -/
def accommodate (nTo : Nat) (st : St N V) : Except Err (St N V) :=
  if p.nMax = 0 then .ok st
  else do
    let fd ← futureDeps p st
    let fd := fd.insertionSort (fun x y => toLex x ≤ toLex y)
    (fd.drop (p.nMax - nTo)).foldlM (fun (st : St N V) (dn : Nat × N) =>
      if dn.1 = 0 then .error .crash
      else do
        let st ← offload dn.2 st
        pure { st with offloaded := insert dn.2 st.offloaded }) st

/-- `offloadRecallDelete(name,RECALL)`.  `/repo/projects/ib/hit.hpp:57-88` -/
def recall (n : N) (st : St N V) : Except Err (St N V) :=
  if st.status n ≠ some .OFFLOADED then .error .crash
  else do
    let st ← accommodate p 1 st
    match st.disk n with
    | none => .error .crash
    | some v => pure { fill p n v st with status := Function.update st.status n (some .IN_MEMORY) }

/-- `ensureInMemory`; looking up the map creates the entry.  `/repo/projects/ib/hit.hpp:197-204` -/
def ensure (n : N) (st : St N V) : Except Err (St N V) :=
  if st.status n = some .OFFLOADED then recall p n st
  else .ok { st with status := Function.update st.status n (some ((st.status n).getD .NOT_COMPUTED)) }

/-- erasing of one propagator.  `/repo/projects/ib/hit.hpp:124-138`; `offloadRecallDelete(name,DELETE)` takes a reference to the storage -/
def eraseOne (e : N) (st : St N V) : Except Err (St N V) :=
  let st := { st with status := Function.update st.status e none }
  if e ∈ st.offloaded then
    if st.mem e = none then .error .freed
    else .ok { st with offloaded := st.offloaded.erase e, disk := Function.update st.disk e none, mem := Function.update st.mem e none }
  else .ok { st with mem := Function.update st.mem e none }

/-- `eraseUnnededProps`.  `/repo/projects/ib/hit.hpp:107-142` -/
def eraseUnneeded (st : St N V) : Except Err (St N V) :=
  ((keys p).filter fun n => (st.status n).isSome ∧ st.propDep n = ∅).foldlM (fun st e => eraseOne e st) st

/-- content of a propagator -/
def readMem (st : St N V) (n : N) : Except Err V :=
  match st.mem n with
  | none => .error .freed
  | some (_, v) => .ok v

/-- content read through the pointer in `mes2ptsPropsLib` -/
def readLib (st : St N V) (n : N) : Except Err V :=
  match st.lib n, st.mem n with
  | some ad, some (ad', v) => if ad = ad' then .ok v else .error .freed
  | _, _ => .error .freed

/-- `generate_quark_propagator`.  `/repo/projects/ib/prop.cpp:886-967` -/
def generate (n : N) (st : St N V) : Except Err (St N V) := do
  let vs ← (p.sources n).mapM (readMem st)
  pure (fill p n (p.gen n vs) st)

/-- `compute_mes2pt_contr_classic`, as for the propagators it uses.  `/repo/projects/ib/contr.cpp:297-328` -/
def computeContr (i : Nat) (a b : N) (st : St N V) : Except Err (St N V) := do
  let st := { st with lib := fun n => if n ≠ a ∧ n ≠ b then none else st.lib n }
  let st ← [a, b].foldlM (fun (st : St N V) n =>
    if st.lib n = none then
      match st.mem n with
      | none => .error .freed
      | some (ad, _) => pure { st with lib := Function.update st.lib n (some ad) }
    else pure st) st
  let va ← readLib st a
  let vb ← readLib st b
  pure { st with out2 := st.out2 ++ [(i, va, vb)] }

/-- `computeHandcuffSide`, as for the propagators it uses.  `/repo/projects/ib/contr.cpp:1028-1062` -/
def computeSide (s : N) (bw fw : N) (st : St N V) : Except Err (St N V) := do
  let vb ← readMem st bw
  let vf ← readMem st fw
  pure { st with outS := st.outS ++ [(s, vb, vf)] }

/-- the operands are listed (first run) or brought in memory.  `/repo/projects/ib/hit.hpp:499-503,573-577,607-611` -/
def prepare (dry : Bool) (l : List N) (st : St N V) : Except Err (St N V) :=
  l.foldlM (fun (st : St N V) s => if dry then .ok { st with orderedDep := st.orderedDep ++ [s] } else ensure p s st) st

/-- the part of the second run only -/
def genCompute (dry : Bool) (n : N) (st : St N V) : Except Err (St N V) :=
  if dry then .ok st
  else do
    let st ← accommodate p 1 st
    let st ← generate p n st
    pure { st with status := Function.update st.status n (some .IN_MEMORY) }

/-- computation of a propagator.  `/repo/projects/ib/hit.hpp:487-525` -/
def genStep (dry : Bool) (n : N) (st : St N V) : Except Err (St N V) := do
  let st ← prepare p dry (p.sources n) st
  let st ← genCompute p dry n st
  let st := { st with computedProps := insert n st.computedProps }
  let st ← (p.sources n).foldlM (fun (st : St N V) s =>
    if n ∉ st.propDep s then .error .crash
    else pure { st with propDep := Function.update st.propDep s ((st.propDep s).erase n) }) st
  if dry then pure st
  else eraseUnneeded p { st with nPassedDep := st.nPassedDep + (p.sources n).length }

/-- removal of a dependency from two propagators -/
def dropDep (t a b : N) (st : St N V) : St N V :=
  [a, b].foldl (fun (st : St N V) n => { st with propDep := Function.update st.propDep n ((st.propDep n).erase t) }) st

/-- computation of a meson contraction.  `/repo/projects/ib/hit.hpp:552-590` -/
def contrStep (dry : Bool) (i : Nat) (a b : N) (st : St N V) : Except Err (St N V) := do
  let st := { st with computed2pts := insert i st.computed2pts }
  let st ← prepare p dry [a, b] st
  let st ← (if dry then .ok st else computeContr i a b st : Except Err (St N V))
  let st := dropDep (p.tag2 i) a b st
  if dry then pure st
  else do
    let st ← eraseUnneeded p st
    pure { st with nPassedDep := st.nPassedDep + 2 }

/-- computation of a side of the handcuffs.  `/repo/projects/ib/hit.hpp:592-629` -/
def sideStep (dry : Bool) (s : N) (bw fw : N) (st : St N V) : Except Err (St N V) := do
  let st := { st with computedSides := insert s st.computedSides }
  let st ← prepare p dry [bw, fw] st
  let st ← (if dry then .ok st else computeSide s bw fw st : Except Err (St N V))
  let st := dropDep (p.tagS s) bw fw st
  if dry then pure st
  else do
    let st ← eraseUnneeded p st
    pure { st with nPassedDep := st.nPassedDep + 2 }

/-- the contractions which can be computed, sorted by the names of the propagators and the index.  `/repo/projects/ib/hit.hpp:528-550` -/
def canBeComputed (C : Finset N) (D : Finset Nat) : List (Nat × N × N) :=
  ((p.contr.zipIdx.map fun x => (x.2, x.1)).filter fun x => x.2.1 ∈ C ∧ x.2.2 ∈ C ∧ x.1 ∉ D).insertionSort
    (fun x y => toLex (x.2.1, toLex (x.2.2, x.1)) ≤ toLex (y.2.1, toLex (y.2.2, y.1)))

/-- body of the loop on the propagators.  `/repo/projects/ib/hit.hpp:487-630` -/
def body (dry : Bool) (st : St N V) (n : N) : Except Err (St N V) :=
  if st.propDep n = ∅ then pure st
  else do
    let st ← genStep p dry n st
    let st ← (canBeComputed p st.computedProps st.computed2pts).foldlM (fun st x => contrStep p dry x.1 x.2.1 x.2.2 st) st
    let st := { st with lib := fun _ => none }
    p.sides.foldlM (fun (st : St N V) x =>
      if x.2.1 ∈ st.computedProps ∧ x.2.2 ∈ st.computedProps ∧ x.1 ∉ st.computedSides then sideStep p dry x.1 x.2.1 x.2.2 st else pure st) st

/-- `internalRun`; `dry` when `runStep` is 1.  The contractions of the photon with the sides are left out.  `/repo/projects/ib/hit.hpp:467-642` -/
def internalRun (dry : Bool) (st : St N V) : Except Err (St N V) := do
  let st := { st with computedProps := ∅, computed2pts := ∅, computedSides := ∅, offloaded := ∅, status := fun _ => none }
  let propDepBack := st.propDep
  let st := if dry then st else
    p.ori.foldl (fun (st : St N V) s => { st with status := Function.update st.status s (some .IN_MEMORY), computedProps := insert s st.computedProps }) st
  let st ← p.qprops.foldlM (body p dry) st
  pure { st with propDep := propDepBack }

/-- `run`.  `/repo/projects/ib/hit.hpp:645-664` -/
def run (st : St N V) : Except Err (St N V) := do
  let st ← internalRun p true st
  let st ← internalRun p false st
  if (∃ i < p.contr.length, i ∉ st.computed2pts) ∨ (∃ x ∈ p.sides, x.1 ∉ st.computedSides) then .error .crash
  else pure st

/-- one turn of the search of the dependencies.  `/repo/projects/ib/hit.hpp:741-751` -/
def depTurn (s : (N → Finset N) × List N) : (N → Finset N) × List N :=
  s.2.foldl (fun (t : (N → Finset N) × List N) q =>
    (p.sources q).foldl (fun (t : (N → Finset N) × List N) n => (Function.update t.1 n (insert q (t.1 n)), t.2 ++ [n])) t) (s.1, [])

/-- the `while` of the search, stopped after `fuel` turns (`none`).  `/repo/projects/ib/hit.hpp:741-751` -/
def depLoop : Nat → (N → Finset N) × List N → Option (N → Finset N)
  | fuel, s => if s.2 = [] then some s.1 else
    match fuel with
    | 0 => none
    | fuel + 1 => depLoop fuel (depTurn p s)

/-- the dependencies of the contractions.  `/repo/projects/ib/hit.hpp:725-738` -/
def depInit : (N → Finset N) × List N :=
  let ins := fun (t : N) (s : (N → Finset N) × List N) (n : N) => (Function.update s.1 n (insert t (s.1 n)), s.2 ++ [n])
  let s := p.contr.zipIdx.foldl (fun s x => [x.1.1, x.1.2].foldl (ins (p.tag2 x.2)) s) ((fun _ => (∅ : Finset N)), ([] : List N))
  p.sides.foldl (fun s x => [x.2.1, x.2.2].foldl (ins (p.tagS x.1)) s) s

/-- the constructor: the map `propDep`.  `/repo/projects/ib/hit.hpp:722-752` -/
def construct (fuel : Nat) : Option (N → Finset N) := depLoop p fuel (depInit p)

/-- the generation of the sources of a hit: allocated and filled.  `/repo/projects/ib/hit.hpp:376-428` -/
def startHit (v : N → V) (st : St N V) : St N V := p.ori.foldl (fun st s => fill p s (v s) st) st

end

end Nissa.Hit
