import Mathlib.Logic.Function.Basic
import Mathlib.Data.Nat.Basic
import Mathlib.Tactic.Common

/-! # The file of the running configuration

Models how many jobs share the same list of configurations: the search of `/repo/projects/ib/conf.cpp:302-419`, `lock_file_t` (`/repo/src/routines/ios.hpp:155-225`), the periodic update of the
time of the file (`conf.cpp:185-237`) and its removal (`conf.cpp:258-265`).  One configuration, any number of jobs, whose steps interleave in any order; time is counted in seconds.

Simplifications: only the master rank of each job; the clocks of the jobs and of the file system agree; a write of the tag is atomic; the tags of different jobs are different (they are 64
random bits); a job that dies does not come back (a new one has another tag); the number of trials is not modelled. -/

set_option linter.all false

namespace Nissa.Lock

/-- times: period `runningUpdateTime` of the update, and the delays within which the machine works: longest from the test on the file to the write of the tag, shortest and longest from the write
to the check (`start_new_conf`, which loads the configuration) -/
structure Times where
  period : Nat
  writeDelay : Nat
  loadMin : Nat
  loadMax : Nat

/-- what the job owning the running file is doing -/
inductive Phase
  /-- has to check again that the configuration is not finished -/
  | entering
  | working
  /-- has created the file `finished` -/
  | ending
deriving DecidableEq

/-- what a job is doing about the configuration -/
inductive Stage
  /-- looking for a configuration -/
  | idle
  /-- has found that it is not finished -/
  | unfinished
  /-- has found the running file absent or old, at the given time -/
  | accepted (t : Nat)
  /-- has written the tag, at the given time -/
  | loading (t : Nat)
  /-- has found its tag in the file; last update of the file (or time of the check) -/
  | running (t : Nat) (ph : Phase)
  /-- has died -/
  | dead
deriving DecidableEq

/-- state: time, running file (tag and time of the last change), whether the file `finished` exists, how many times the work was completed, and the jobs -/
structure State (J : Type) where
  now : Nat
  file : Option (J × Nat)
  finished : Bool
  completed : Nat
  stage : J → Stage

/-- `checkRunningIsRecent`, with the time of the last change.  `/repo/projects/ib/conf.cpp:214-235` -/
def checkRunningIsRecent (T : Times) (now mtime : Nat) : Bool :=
  if T.period = 0 then false else decide (now - mtime < 2 * T.period)

/-- a job in the given stage is on time -/
def inTime (T : Times) (now : Nat) : Stage → Prop
  | .accepted t => now ≤ t + T.writeDelay
  | .loading t => now ≤ t + T.loadMax
  | .running t _ => T.period = 0 ∨ now ≤ t + T.period
  | _ => True

variable {J : Type} [DecidableEq J]

/-- the stage of a job changes -/
def State.set (s : State J) (j : J) (x : Stage) : State J := { s with stage := Function.update s.stage j x }

/-- a step -/
inductive Step (T : Times) : State J → State J → Prop
  /-- time passes, all the jobs being on time -/
  | tick (s : State J) (dt : Nat) (h : ∀ j, inTime T (s.now + dt) (s.stage j)) : Step T s { s with now := s.now + dt }
  /-- `hasFinished` is false.  `conf.cpp:314-324` -/
  | look (s : State J) (j : J) (h : s.stage j = .idle) (hf : s.finished = false) : Step T s (s.set j .unfinished)
  /-- the running file is absent, or not recent.  `conf.cpp:348-361` -/
  | accept (s : State J) (j : J) (h : s.stage j = .unfinished) (hf : ∀ f ∈ s.file, checkRunningIsRecent T s.now f.2 = false) : Step T s (s.set j (.accepted s.now))
  /-- the running file is recent: the job skips the configuration -/
  | refuse (s : State J) (j : J) (f : J × Nat) (h : s.stage j = .unfinished) (hf : s.file = some f) (hr : checkRunningIsRecent T s.now f.2 = true) : Step T s (s.set j .idle)
  /-- `try_lock`.  `conf.cpp:380`, `ios.hpp:183-205` -/
  | try_lock (s : State J) (j : J) (t : Nat) (h : s.stage j = .accepted t) : Step T s { s.set j (.loading s.now) with file := some (j, s.now) }
  /-- `check_lock` finds the own tag.  `conf.cpp:386-396`, `ios.hpp:208-225` -/
  | won (s : State J) (j : J) (t : Nat) (h : s.stage j = .loading t) (hl : t + T.loadMin ≤ s.now) (hf : s.file.map Prod.fst = some j) : Step T s (s.set j (.running s.now .entering))
  /-- `check_lock` does not find it: the job skips the configuration -/
  | lost (s : State J) (j : J) (t : Nat) (h : s.stage j = .loading t) (hl : t + T.loadMin ≤ s.now) (hf : s.file.map Prod.fst ≠ some j) : Step T s (s.set j .idle)
  /-- the file `finished` is checked again.  `/repo/projects/ib/ib.cpp:583` -/
  | enter (s : State J) (j : J) (t : Nat) (h : s.stage j = .running t .entering) (hf : s.finished = false) : Step T s (s.set j (.running t .working))
  /-- it exists: the loop on the configurations ends, and the job with it; the running file stays -/
  | leave (s : State J) (j : J) (t : Nat) (h : s.stage j = .running t .entering) (hf : s.finished = true) : Step T s (s.set j .dead)
  /-- `touchRunning`: only the time changes.  `conf.cpp:188-210` -/
  | touch (s : State J) (j : J) (t : Nat) (ph : Phase) (h : s.stage j = .running t ph) : Step T s { s.set j (.running s.now ph) with file := s.file.map fun f => (f.1, s.now) }
  /-- `finalizeConf`.  `conf.cpp:267-273` -/
  | finalize (s : State J) (j : J) (t : Nat) (h : s.stage j = .running t .working) : Step T s { s.set j (.running t .ending) with finished := true, completed := s.completed + 1 }
  /-- `releaseConf`, after finishing or because the wall time ends.  `ib.cpp:637-641`, `conf.cpp:258-265` -/
  | release (s : State J) (j : J) (t : Nat) (ph : Phase) (h : s.stage j = .running t ph) (hp : ph ≠ .entering) : Step T s { s.set j .idle with file := none }
  /-- the job is killed: the running file stays -/
  | kill (s : State J) (j : J) : Step T s (s.set j .dead)
  /-- the job stops with an error while running: `crashHook` removes the running file.  `conf.cpp:393`, `/repo/src/base/debug.cpp:105-110` -/
  | crash (s : State J) (j : J) (t : Nat) (ph : Phase) (h : s.stage j = .running t ph) : Step T s { s.set j .dead with file := none }

/-- the beginning: no job is at work and the configuration is not finished; a running file might have been left by an old job -/
def Start (s : State J) : Prop := (∀ j, s.stage j = .idle ∨ s.stage j = .dead) ∧ s.finished = false ∧ s.completed = 0

/-- states that can be reached -/
inductive Reach (T : Times) (s0 : State J) : State J → Prop
  | start : Reach T s0 s0
  | step {s s'} : Reach T s0 s → Step T s s' → Reach T s0 s'

end Nissa.Lock
