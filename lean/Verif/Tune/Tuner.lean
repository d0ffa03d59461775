import Mathlib.Data.Rat.Defs
import Mathlib.Logic.Function.Iterate
import Mathlib.Logic.Function.Basic
import Mathlib.Algebra.Order.Ring.Rat

set_option linter.all false

/-!
# Parallel loops on the GPU and their automatic tuning

Model of `CUDA_PARALLEL_LOOP`, `cudaParallelFor` (`/repo/src/threads/threads.hpp`) and
`getOptimalBlockSize` (`/repo/src/threads/benchmarks.hpp`), with the actions which save and restore
the fields during the tuning (`/repo/src/base/field.hpp:1078-1105`, `/repo/src/base/random.cpp:541-573`).

Simplifications.
* What a launch of a kernel does to the memory is a parameter (`Loop.run`); that a launch does what the
  serial loop does is proved apart (`launch` below).
* A field has the sites of the rank (`bulk`) and the halo with the edges (`halo`); `assign` copies only
  the first (`/repo/src/base/field.hpp:1388-1411,743-744`).
* The vector of the kernels with their maps is a list of names (in order) and a partial function; the
  names are different.
* The static id of each kernel is looked up by name at each launch (the vector only grows, so the
  result is the same).
* The file of the tuned kernels is written in one go.
* The statistics of the times (`totalTime`, `nInvoke`) are left out.
-/

namespace Nissa.Tune

/-! ## A single launch -/

/-- Number of blocks, `/repo/src/threads/threads.hpp:206-207` -/
def gridSize (len b : Nat) : Nat := (len + b - 1) / b

/-- Index of a thread, `/repo/src/threads/threads.hpp:92-93`: `blockIdx.x`, `blockDim.x` and `threadIdx.x`
are unsigned, so that the sum is computed modulo 2^32 (`min` is an `int`), then converted to 64 bits. -/
def indexOf (min b blk thr : Nat) : Nat := (min + blk * b + thr) % 2 ^ 32

/-- The threads of a launch; `dim3` truncates the number of blocks to 32 bits. -/
def threads (len b : Nat) : List (Nat × Nat) :=
  (List.range (gridSize len b % 2 ^ 32)).flatMap fun blk => (List.range b).map fun thr => (blk, thr)

/-- The indices on which the body is executed, if the threads are run in the order `sched`.
`/repo/src/threads/threads.hpp:92-96` -/
def executed (min len b : Nat) (sched : List (Nat × Nat)) : List Nat :=
  (sched.map fun t => indexOf min b t.1 t.2).filter (fun i => decide (i < min + len))

/-! ## The tuner -/

/-- Memory: fields, generators, copies of the fields made for the tuning (pointer `Field::backup`, none if
null or deleted), copy of the generators (`backup_loc_rnd_gen`). -/
structure Mem (V H R : Type) where
  bulk : Nat → V
  halo : Nat → H
  rng : R
  backup : Nat → Option V
  backupRng : Option R

/-- What can be registered while the captures are evaluated: a field (`getWritable`), the copy of a field
(when it is being assigned), the generators (`maybeBackupLocRndGenForBenchmark`). -/
inductive Act where
  | field (f : Nat)
  | copyOf (f : Nat)
  | rng
  deriving DecidableEq

/-- A parallel loop. -/
structure Loop (V H R : Type) where
  /-- function, file and line -/
  name : String
  len : Int
  /-- actions registered by the captures -/
  regs : List Act
  /-- effect of one launch -/
  run : Mem V H R → Mem V H R

/-- `kernelInfoLaunchParsStats` without the times. -/
structure Table where
  names : List String
  size : String → Int → Option Int

inductive Err where
  /-- CRASH -/
  | crash
  /-- undefined behaviour: dangling reference, deleted pointer -/
  | ub
  /-- loops nested more than expected by the caller of the model -/
  | deep
  deriving DecidableEq

/-- Globals of the program. -/
structure St (V H R : Type) where
  mem : Mem V H R
  table : Table
  /-- capacity of the vector of the kernels -/
  cap : Nat
  /-- number of reallocations of that vector -/
  gen : Nat
  doNotBackup : Bool
  begins : List Act
  ends : List Act
  /-- number of readings of the clock -/
  clk : Nat
  /-- all the versions of the file of the tuned kernels, last first -/
  files : List Table

/-- Environment: readings of the clock, maximal number of threads per block of each kernel, name and length
of the loop that copies a field, content of the fields just created, verbosity. -/
structure Env (V : Type) where
  time : Nat → ℚ
  nMax : String → Int
  copyName : Nat → String
  copyLen : Nat → Int
  junk : V
  verbose : Bool

variable {V H R : Type}

/-- Result of a step. -/
abbrev Res (V H R : Type) := Except Err (St V H R)

/-- `*backup=*this`, `/repo/src/base/field.hpp:1088-1089,1388-1411` -/
def copyLoop (E : Env V) (f : Nat) : Loop V H R where
  name := E.copyName f
  len := E.copyLen f
  regs := [.copyOf f]
  run m := { m with backup := Function.update m.backup f ((m.backup f).map fun _ => m.bulk f) }

/-- `*this=*backup`, `/repo/src/base/field.hpp:1094` -/
def restoreLoop (E : Env V) (f : Nat) : Loop V H R where
  name := E.copyName f
  len := E.copyLen f
  regs := [.field f]
  run m := match m.backup f with
    | some v => { m with bulk := Function.update m.bulk f v }
    | none => m

/-- `Field::assign`, `/repo/src/base/field.hpp:1388-1411`: no backup meanwhile -/
def assign (rec : Loop V H R → St V H R → Res V H R) (L : Loop V H R) (s : St V H R) : Res V H R :=
  match rec L { s with doNotBackup := true } with
  | .ok s' => .ok { s' with doNotBackup := s.doNotBackup }
  | .error e => .error e

/-- Action at the beginning of the tuning, `/repo/src/base/field.hpp:1085-1090`, `/repo/src/base/random.cpp:546-551` -/
def runBegin (E : Env V) (rec : Loop V H R → St V H R → Res V H R) (s : St V H R) : Act → Res V H R
  | .field f =>
    assign rec (copyLoop E f) { s with mem := { s.mem with backup := Function.update s.mem.backup f (some E.junk) } }
  | .rng => .ok { s with mem := { s.mem with backupRng := some s.mem.rng } }
  | .copyOf _ => .error .ub

/-- Action at the end of the tuning, `/repo/src/base/field.hpp:1092-1097`, `/repo/src/base/random.cpp:553-558` -/
def runEnd (E : Env V) (rec : Loop V H R → St V H R → Res V H R) (s : St V H R) : Act → Res V H R
  | .field f =>
    match s.mem.backup f with
    | none => .error .ub
    | some _ =>
      match assign rec (restoreLoop E f) s with
      | .ok s => .ok { s with mem := { s.mem with backup := Function.update s.mem.backup f none } }
      | .error e => .error e
  | .rng =>
    match s.mem.backupRng with
    | none => .error .ub
    | some r => .ok { s with mem := { s.mem with rng := r, backupRng := none } }
  | .copyOf _ => .error .ub

/-- The actions one after the other, `/repo/src/threads/benchmarks.hpp:250-256,304-310` -/
def runAll (g : St V H R → Act → Res V H R) : List Act → St V H R → Res V H R
  | [], s => .ok s
  | a :: l, s => match g s a with
    | .ok s => runAll g l s
    | .error e => .error e

/-- The actions, unless we are in a copy, `/repo/src/threads/benchmarks.hpp:250-256,304-310` -/
def guarded (g : St V H R → Act → Res V H R) (l : List Act) (s : St V H R) : Res V H R :=
  if s.doNotBackup then .ok s
  else match runAll g l { s with doNotBackup := true } with
    | .ok s => .ok { s with doNotBackup := false }
    | .error e => .error e

/-- The block sizes tried, `/repo/src/threads/benchmarks.hpp:273` -/
def testSizes : Nat → Int → Int → List Int
  | 0, _, _ => []
  | n + 1, b, max => if b ≤ max then b :: testSizes n (2 * b) max else []

/-- Number of launches of each trial, `/repo/src/threads/benchmarks.hpp:261` -/
def nBench : Nat := 100

/-- State of the trials: memory, readings of the clock, optimal size, minimal time. -/
structure Trial (V H R : Type) where
  mem : Mem V H R
  clk : Nat
  opt : Int
  minTime : ℚ

/-- A trial, `/repo/src/threads/benchmarks.hpp:275-296` -/
def trial (E : Env V) (run : Mem V H R → Mem V H R) (t : Trial V H R) (b : Int) : Trial V H R :=
  let mem := run t.mem
  let t0 := E.time t.clk
  let mem := run^[nBench] mem
  let rt := (E.time (t.clk + 1) - t0) / nBench
  if t.opt = 0 ∨ t.minTime > rt then { mem := mem, clk := t.clk + 2, opt := b, minTime := rt }
  else { mem := mem, clk := t.clk + 2, opt := t.opt, minTime := t.minTime }

/-- An element of the map of a kernel is set. -/
def Table.set (t : Table) (name : String) (len b : Int) : Table :=
  { t with size := fun n l => if n = name ∧ l = len then some b else t.size n l }

/-- Registration of a kernel, `/repo/src/threads/threads.hpp:133-147`; the vector is reallocated if full. -/
def register (name : String) (s : St V H R) : St V H R :=
  if name ∈ s.table.names then s
  else
    let tab := { s.table with names := s.table.names ++ [name] }
    if s.table.names.length = s.cap then
      { s with table := tab, cap := max 1 (2 * s.cap), gen := s.gen + 1 }
    else { s with table := tab }

/-- `getOptimalBlockSize` with minimal size 1, `/repo/src/threads/benchmarks.hpp:206-327` -/
def getOptimalBlockSize (E : Env V) (rec : Loop V H R → St V H R → Res V H R) (L : Loop V H R)
    (s : St V H R) : Except Err (Int × St V H R) :=
  match s.table.size L.name L.len with
  | some b => .ok (b, s)
  | none =>
    let gen := s.gen
    let s := { s with table := s.table.set L.name L.len 0 }
    let beginActs := s.begins
    let endActs := s.ends
    let s := { s with begins := [], ends := [] }
    match guarded (runBegin E rec) beginActs s with
    | .error e => .error e
    | .ok s =>
      if E.nMax L.name ≤ 1 then .error .crash
      else
        let t := (testSizes ((E.nMax L.name).toNat + 1) 1 (E.nMax L.name)).foldl (trial E L.run)
          { mem := s.mem, clk := s.clk, opt := 0, minTime := 0 }
        let s := { s with mem := t.mem, clk := t.clk, table := s.table.set L.name L.len t.opt }
        match guarded (runEnd E rec) endActs s with
        | .error e => .error e
        | .ok s =>
          -- the name is printed through the reference taken at the beginning
          if E.verbose ∧ s.gen ≠ gen then .error .ub
          else .ok (t.opt, { s with files := s.table :: s.files })

/-- `CUDA_PARALLEL_LOOP` and `cudaParallelFor`, `/repo/src/threads/threads.hpp:100-280`; the first argument
bounds how many loops can be one inside the other. -/
def parLoop (E : Env V) : Nat → Loop V H R → St V H R → Res V H R
  | 0, _, _ => .error .deep
  | n + 1, L, s =>
    let s := { s with begins := L.regs, ends := L.regs }
    let s := register L.name s
    if L.len > 0 then
      if E.nMax L.name ≤ 0 then .error .crash
      else
        match getOptimalBlockSize E (parLoop E n) L s with
        | .error e => .error e
        | .ok (b, s) =>
          if b ≤ 0 ∨ b > E.nMax L.name then .error .crash
          else .ok { s with mem := L.run s.mem }
    else .ok s

/-- Capacity of a vector filled one element at a time (`emplace_back`, libstdc++). -/
def capOf : Nat → Nat
  | 0 => 0
  | n + 1 => if n = capOf n then max 1 (2 * capOf n) else capOf n

/-- `tryLoadTunedKernelsInfo`, `/repo/src/threads/benchmarks.hpp:141-197`: the program starts again -/
def restart (m : Mem V H R) (file : Option Table) : St V H R where
  mem := m
  table := file.getD { names := [], size := fun _ _ => none }
  cap := (file.map fun t => capOf t.names.length).getD 0
  gen := 0
  doNotBackup := false
  begins := []
  ends := []
  clk := 0
  files := file.toList

end Nissa.Tune
