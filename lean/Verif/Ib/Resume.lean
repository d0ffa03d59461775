import Mathlib.Data.List.Basic
import Mathlib.Data.List.Flatten
import Mathlib.Data.List.FinRange
import Mathlib.Data.UInt
import Mathlib.Logic.Function.Basic

/-! # Resuming an interrupted run

Models the main loop of `/repo/projects/ib/ib.cpp:583-642`, the file of the partial data (`/repo/projects/ib/hit.hpp:663-720`), the printing of the mesonic contractions
(`/repo/projects/ib/contr.cpp:32-60,433-472`) and the stream of random numbers used by each hit (`/repo/projects/ib/hit.hpp:207-217,430-462`).

The files are lists of bytes, and a run is the list of the elementary changes it makes to the files, one byte at a time: an interruption (killed job, power failure, crash) leaves the
effect of a prefix of the list.  Stopping for the wall time (`isRemainingTimeEnough`) is a case of it.  The choice of which configuration to skip (too many trials, running
elsewhere, `stop` file) is arbitrary; finished ones are skipped always.

Simplifications: only the master rank is modelled (the others receive its data); only mesonic contractions (with any other the program stops, `hit.hpp:666-669`); each
configuration has its own output folder; the content of the file `nTrials` is not kept; the sources are not read from files, and the photon neither; data of the
correlators are bit patterns, the arithmetic on them is an arbitrary function, so that results are equal to the bit. -/

set_option linter.all false

namespace Nissa.Resume

/-- the positions in the stream of random numbers from which a hit draws: coordinates of the origin, photon, sources -/
structure HitRnd where
  ori : List Nat
  photon : Option Nat
  sources : List Nat
deriving DecidableEq

/-- what does not change during the run -/
structure Plan where
  /-- number of configurations `nGaugeConfs` -/
  nConfs : Nat
  /-- `nHits` -/
  nHits : Nat
  /-- `mes2ptsContr.size()` -/
  nC : Nat
  /-- name of the file of each contraction -/
  name : Fin nC → Nat
  /-- bytes of each contraction, `sizeof(complex)*contrSize` -/
  sz : Fin nC → Nat
  /-- `need_photon` -/
  photon : Bool
  /-- number of original sources -/
  nSou : Nat
  /-- `rnd_gauge_transform` -/
  gaugeTransf : Bool
  /-- not `doNotAverageHits` -/
  avg : Bool
  /-- `preservePartialData` -/
  preserve : Bool
  /-- what a hit adds to a contraction of a configuration (C63, C64) -/
  contract : Nat → HitRnd → (m : Fin nC) → List UInt8 → List UInt8
  /-- the text printed: division factor, origin if not averaging, content -/
  text : (m : Fin nC) → Nat → Option HitRnd → List UInt8 → List UInt8

/-- the content of the contractions -/
abbrev Contr (P : Plan) := Fin P.nC → List UInt8

/-! ### Random numbers -/

/-- `field_rng_stream.getDrawer<T>()`, for a `T` of `n` doubles: position, and new position.  `/repo/src/base/sitmo.hpp:441-461` -/
def getDrawer (n pos : Nat) : Nat × Nat := (pos, pos + n)

/-- the drawing of the coordinates.  `/repo/projects/ib/hit.hpp:438-448` -/
def drawOri (pos : Nat) : List Nat × Nat :=
  (List.range 4).foldl (fun s _ => let d := getDrawer 1 s.2; (s.1 ++ [d.1], d.2)) ([], pos)

/-- `generate_photon_source` (the same draws come from `generate_photon_stochastic_propagator`).  `/repo/projects/ib/prop.cpp:585-601,988-992` -/
def drawPhoton (pos : Nat) : Nat × Nat := getDrawer 8 pos

/-- `generate_original_sources`: `generate_original_source` takes the drawer before returning if skipping.  `/repo/projects/ib/hit.hpp:207-217,377-389` -/
def drawSources (nSou pos : Nat) (skip : Bool) : List Nat × Nat :=
  (List.range nSou).foldl (fun s _ => let d := getDrawer 24 s.2; (if skip then s.1 else s.1 ++ [d.1], d.2)) ([], pos)

/-- `start_hit`: the positions used, and the new one.  `/repo/projects/ib/hit.hpp:430-462` -/
def start_hit (P : Plan) (skip : Bool) (pos : Nat) : HitRnd × Nat :=
  let o := drawOri pos
  let ph := if P.photon then (if skip then (none, (drawPhoton o.2).2) else (some (drawPhoton o.2).1, (drawPhoton o.2).2)) else (none, o.2)
  let so := drawSources P.nSou ph.2 skip
  (⟨o.1, ph.1, so.1⟩, so.2)

/-- `skip_conf`.  `/repo/projects/ib/conf.cpp:177-183` -/
def skip_conf (P : Plan) (pos : Nat) : Nat := (List.range P.nHits).foldl (fun pos _ => (start_hit P true pos).2) pos

/-- the numbers drawn in `setup_conf` by `perform_random_gauge_transform`: 9 coefficients for each site.
`/repo/projects/ib/conf.cpp:77-78`, `/repo/src/operations/gauge_fixing.cpp:894` -/
def setup_conf (P : Plan) (pos : Nat) : Nat := if P.gaugeTransf then (getDrawer 9 pos).2 else pos

/-! ### Files -/

/-- the files in an output folder -/
inductive File
  | partialData
  | finished
  | nTrials
  | out (name : Nat)
deriving DecidableEq

/-- content of the output folder of each configuration -/
abbrev Disk := Nat → File → Option (List UInt8)

/-- elementary changes -/
inductive Effect
  /-- `fopen` with mode `w` -/
  | create (c : Nat) (f : File)
  /-- `fopen` with mode `a` -/
  | append (c : Nat) (f : File)
  /-- a byte reaches the file -/
  | put (c : Nat) (f : File) (b : UInt8)
  | remove (c : Nat) (f : File)

/-- the file after the change -/
def setFile (d : Disk) (c : Nat) (f : File) (v : Option (List UInt8)) : Disk := fun c' f' => if c' = c ∧ f' = f then v else d c' f'

def apply (d : Disk) : Effect → Disk
  | .create c f => setFile d c f (some [])
  | .append c f => setFile d c f (some ((d c f).getD []))
  | .put c f b => setFile d c f ((d c f).map (· ++ [b]))
  | .remove c f => setFile d c f none

/-- the files after a list of changes -/
def exec (d : Disk) (l : List Effect) : Disk := l.foldl apply d

/-- writing of a sequence of bytes -/
def putAll (c : Nat) (f : File) (bs : List UInt8) : List Effect := bs.map (Effect.put c f)

/-! ### Partial data -/

/-- an `int` in memory, little endian -/
def encInt (n : Nat) : List UInt8 := [UInt8.ofNat n, UInt8.ofNat (n / 256), UInt8.ofNat (n / 256 ^ 2), UInt8.ofNat (n / 256 ^ 3)]

def decInt : List UInt8 → Nat
  | [a, b, c, d] => a.toNat + 256 * (b.toNat + 256 * (c.toNat + 256 * d.toNat))
  | _ => 0

/-- `fread` of `n` bytes: what is read and the rest of the file; `none` if the file is shorter -/
def fread (n : Nat) (bs : List UInt8) : Option (List UInt8 × List UInt8) := if n ≤ bs.length then some (bs.take n, bs.drop n) else none

/-- `maybeLoadPartialData`: hits done and contractions; `none` if the program stops.  `contr` is the content before (zero, from `start_new_conf`).
`/repo/projects/ib/hit.hpp:664-695` -/
def maybeLoadPartialData (P : Plan) (file : Option (List UInt8)) (contr : Contr P) : Option (Nat × Contr P) :=
  match file with
  | none => some (0, contr)
  | some bs => do
    let (h, bs) ← fread 4 bs
    let (contr, _) ← (List.finRange P.nC).foldlM (fun (s : Contr P × List UInt8) m => do
      let (v, bs) ← fread (P.sz m) s.2
      pure (Function.update s.1 m v, bs)) (contr, bs)
    pure (decInt h, contr)

/-- the bytes of the file of partial data -/
def partialBytes (P : Plan) (n : Nat) (contr : Contr P) : List UInt8 := encInt n ++ (List.finRange P.nC).flatMap contr

/-- `writePartialData`.  `/repo/projects/ib/hit.hpp:698-711` -/
def writePartialData (P : Plan) (c n : Nat) (contr : Contr P) : List Effect :=
  .create c .partialData :: putAll c .partialData (partialBytes P n contr)

/-! ### Printing -/

/-- `print_mes2pts_contr`: mode of `open_or_append_t`, then the text.  `/repo/projects/ib/contr.cpp:32-60,435-474` -/
def print_contr (P : Plan) (c iHit : Nat) (rnd : HitRnd) (contr : Contr P) : List Effect :=
  let force_append := !P.avg && decide (iHit ≠ 0)
  let n := if P.avg then P.nHits else 1
  let ori := if P.avg then none else some rnd
  ((List.finRange P.nC).foldl (fun (s : List Nat × List Effect) m =>
    let w := !force_append && decide (P.name m ∉ s.1)
    let opened := if w then P.name m :: s.1 else s.1
    (opened, s.2 ++ (if w then .create c (.out (P.name m)) else .append c (.out (P.name m))) :: putAll c (.out (P.name m)) (P.text m n ori (contr m)))) ([], [])).2

/-! ### Main loop -/

/-- `clearCorrelations`.  `/repo/projects/ib/contr.cpp:12-29`, `contr.hpp:62-66` -/
def zero (P : Plan) : Contr P := fun m => List.replicate (P.sz m) 0

/-- state of the loop on the hits: position in the stream, last numbers drawn, contractions, changes to the files (a list for each hit) -/
structure St (P : Plan) where
  pos : Nat
  rnd : HitRnd
  contr : Contr P
  eff : List (List Effect)

/-- body of the loop on the hits.  `/repo/projects/ib/ib.cpp:592-622` -/
def hitBody (P : Plan) (c nHitsDoneSoFar : Nat) (s : St P) (iHit : Nat) : St P :=
  let skip := decide (iHit < nHitsDoneSoFar)
  let contr := if P.avg then s.contr else zero P
  let (rnd, pos) := start_hit P skip s.pos
  if skip then ⟨pos, rnd, contr, s.eff ++ [[.remove c .nTrials]]⟩
  else
    let contr : Contr P := fun m => P.contract c rnd m (contr m)
    ⟨pos, rnd, contr, s.eff ++ [(if P.avg then [] else print_contr P c iHit rnd contr) ++ writePartialData P c (iHit + 1) contr ++ [.remove c .nTrials]]⟩

/-- a configuration from `maybeLoadPartialData` on: position at the end and changes to the files, `none` if the program stops.  `/repo/projects/ib/ib.cpp:585-639`, `conf.cpp:267-273` -/
def runConf (P : Plan) (c : Nat) (file : Option (List UInt8)) (pos : Nat) : Option (Nat × List (List Effect)) := do
  let (n, contr) ← maybeLoadPartialData P file (zero P)
  let s := (List.range P.nHits).foldl (hitBody P c n) ⟨pos, ⟨[], none, []⟩, contr, []⟩
  pure (s.pos, s.eff ++ [(if P.avg then print_contr P c 0 s.rnd s.contr else []) ++ [.create c .finished] ++ (if P.preserve then [] else [.remove c .partialData])])

/-- the loop on the configurations: `skip c` if the configuration is skipped although not finished.  The changes are in blocks, one for each hit, the final one of each configuration
alone.  The file `nTrials` is written before (`conf.cpp:435-437`).  `/repo/projects/ib/ib.cpp:583-642`, `conf.cpp:277-440` -/
def process (P : Plan) (skip : Nat → Bool) (d : Disk) : Nat × List (List Effect) × Bool :=
  (List.range P.nConfs).foldl (fun s c =>
    let (pos, eff, stopped) := s
    if stopped then s
    else if (d c .finished).isSome || skip c then (skip_conf P pos, eff, false)
    else
      let eff := eff ++ [[.create c .nTrials]]
      match runConf P c (d c .partialData) (setup_conf P pos) with
      | none => (pos, eff, true)
      | some (pos, e) => (pos, eff ++ e, false)) (0, [], false)

/-- all the changes of a job -/
def effects (P : Plan) (skip : Nat → Bool) (d : Disk) : List (List Effect) := (process P skip d).2.1

/-- a job runs on the disk and is interrupted at any moment -/
def Job (P : Plan) (d d' : Disk) : Prop := ∃ skip k, d' = exec d ((effects P skip d).flatten.take k)

/-- the same, interrupted only between the hits -/
def JobTidy (P : Plan) (d d' : Disk) : Prop := ∃ skip k, d' = exec d ((effects P skip d).take k).flatten

/-- the disk after any number of jobs -/
inductive After (J : Disk → Disk → Prop) (d : Disk) : Disk → Prop
  | start : After J d d
  | job {d' d''} : After J d d' → J d' d'' → After J d d''

end Nissa.Resume
