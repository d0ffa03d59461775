import Mathlib.Data.Rat.Floor

set_option linter.all false

/-!
# The program that generates configurations (`/repo/projects/generate_confs/generate.cpp`)

Model of a whole session of the program: how it starts (from the running configuration or from
scratch), the loop of the trajectories with its stopping conditions, the measurements, the
configurations which are saved, the end of the session, and the analysis mode.

What a trajectory computes and what a measurement computes are *parameters* (`Prog.update`,
`GMeas.lines`, `FMeas.run`): the theorems hold for every update and every measurement.  The model
of the update itself is in `Verif/Hmc/Rhmc.lean` and `Verif/Sweep`.

Everything a session does to the disk is a list of atomic actions; a crash is a prefix of it.

Simplifications.
* `itraj` and the other `int` are unbounded integers; the times are exact rationals.
* Configuration files and text files live in two separate name spaces.
* A configuration completely written is read back identical (C18, C22, C73), and a configuration
  half written makes the program stop while reading it (the records are checked, C21, C22).
* The topological potential with memory (flag 2) is left out: with it the program stops at
  `/repo/src/hmc/gauge/topological_action.hpp:40`.
* A measurement is identified with one text file (the topological charge can write a second one).
-/

namespace Nissa.Gen

/-- A configuration as saved: links and messages; each message can be missing if the file comes from
another program.  `/repo/projects/generate_confs/generate.cpp:35-84` -/
structure Saved (C A G : Type) where
  conf : C
  /-- message MD_traj -/
  itraj : Option Int
  /-- message RAT_approx -/
  rat : Option A
  /-- message RND_gen_status -/
  glb : Option G
  deriving DecidableEq

/-- A configuration file: half written, or complete. -/
inductive CFile (C A G : Type) where
  | torn
  | full (s : Saved C A G)
  deriving DecidableEq

/-- The disk: configurations, text files, the file `stop`, the file `seed_new`. -/
structure Disk (C A G Line : Type) where
  confs : String → Option (CFile C A G)
  texts : String → Option (List Line)
  stop : Bool
  seedNew : Option Int

/-- Atomic actions on the disk. -/
inductive Act (C A G Line : Type) where
  /-- `fopen(p,"w")` of a text file -/
  | trunc (p : String)
  /-- `fopen(p,"a")` of a text file -/
  | append (p : String)
  | line (p : String) (l : Line)
  /-- `fopen(p,"w")` of a configuration, `/repo/src/io/ILDG_File.cpp:121-124` -/
  | beginW (p : String)
  /-- the configuration is complete -/
  | endW (p : String) (s : Saved C A G)
  | touchStop
  | rmSeedNew
  deriving DecidableEq

/-- Effect of an action. -/
def Act.apply {C A G Line : Type} : Act C A G Line → Disk C A G Line → Disk C A G Line
  | .trunc p, d => { d with texts := fun q => if q = p then some [] else d.texts q }
  | .append p, d => { d with texts := fun q => if q = p then some ((d.texts p).getD []) else d.texts q }
  | .line p l, d => { d with texts := fun q => if q = p then some ((d.texts p).getD [] ++ [l]) else d.texts q }
  | .beginW p, d => { d with confs := fun q => if q = p then some .torn else d.confs q }
  | .endW p s, d => { d with confs := fun q => if q = p then some (.full s) else d.confs q }
  | .touchStop, d => { d with stop := true }
  | .rmSeedNew, d => { d with seedNew := none }

/-- Effect of a list of actions. -/
def applyAll {C A G Line : Type} (as : List (Act C A G Line)) (d : Disk C A G Line) : Disk C A G Line :=
  as.foldl (fun d a => a.apply d) d

/-- A measurement of the gauge configuration: parameters `each`, `after`, `path`
and the lines written for a configuration, its id and its acceptance.
`/repo/projects/generate_confs/generate.cpp:353-436`, `/repo/src/measures/gauge/topological_charge.cpp:240-310` -/
structure GMeas (C Line : Type) where
  each : Int
  after : Int
  path : String
  lines : C → Int → Int → List Line

/-- A fermionic measurement: it is bound to a theory and uses random numbers.
`/repo/src/measures/fermions/fermionic_meas.hpp:11-20` -/
structure FMeas (C G L Line : Type) where
  each : Int
  after : Int
  itheory : Int
  path : String
  run : C → Int → G × L → List Line × (G × L)

/-- Input of the program and the functions that are left abstract. -/
structure Prog (C A G L Line : Type) where
  /-- `conf_pars_t`, `/repo/src/hmc/multipseudo/multipseudo_rhmc_step.hpp:88-94` -/
  path : String
  storePath : Int → String
  storeEach : Int
  storeRunning : Int
  /-- `hmc_evol_pars_t::ntraj_tot` -/
  ntrajTot : Int
  seed : Int
  walltime : ℚ
  nTheories : Nat
  gauge : List (GMeas C Line)
  ferm : List (FMeas C G L Line)
  /-- `generate_new_conf`, `/repo/projects/generate_confs/generate.cpp:295-349` -/
  update : Int → C → A → G × L → C × A × (G × L) × Int
  /-- hot or cold configuration -/
  initial : G × L → C × (G × L)
  /-- `start_glb_rnd_gen(int)`, `/repo/src/base/random.cpp:102-109` -/
  seedGlb : Int → G
  /-- `start_loc_rnd_gen` with the global generator already initialised: a number is drawn from the
  global generator and the local ones are started with it, `/repo/src/base/random.cpp:122-144` -/
  seedLoc : G → L × G
  noRat : A

/-- State of the process (the globals of `generate.cpp:15-29`). -/
structure Proc (C A G L : Type) where
  conf : C
  itraj : Int
  rat : A
  rnd : G × L
  created : Bool
  ntrajProd : Nat
  storedLast : Bool
  maxTime : ℚ

/-- What the outside world does during one iteration of the loop: whether the files `stop` and
`restart` have been created by someone else, and the readings of the clock. -/
structure Env where
  stop : Bool
  restart : Bool
  tCheck : ℚ
  tStart : ℚ
  tEnd : ℚ

variable {C A G L Line : Type}

/-- `measure_is_due`, `/repo/projects/generate_confs/driver.hpp:9-10` (the remainder of C truncates). -/
def measureIsDue (each after iconf : Int) : Bool :=
  let i := iconf - after
  decide (each > 0) && decide (Int.tmod i each = 0) && decide (i ≥ 0)

/-- `base_fermionic_meas_t::measure_is_due`, `/repo/src/measures/fermions/fermionic_meas.hpp:59-67` -/
def fermIsDue (m : FMeas C G L Line) (itheory iconf : Int) : Bool :=
  decide (m.itheory = itheory) && decide (m.each > 0) && decide (Int.tmod iconf m.each = 0) &&
    decide (iconf ≥ m.after)

/-- `any_fermionic_measure_is_due`, `/repo/projects/generate_confs/driver.hpp:54-74` -/
def anyFermIsDue (P : Prog C A G L Line) (itheory iconf : Int) : Bool :=
  P.ferm.any (fun m => fermIsDue m itheory iconf)

/-- `if_meas_is_due_print`, `/repo/projects/generate_confs/driver.hpp:76-82` -/
def ifMeasIsDuePrint (m : FMeas C G L Line) (itheory iconf : Int) : Bool :=
  measureIsDue m.each m.after iconf && decide (m.itheory = itheory)

/-- `open_file(path,conf_created?"w":"a")` and the lines written.
`/repo/projects/generate_confs/generate.cpp:397-398`, `/repo/src/routines/ios.cpp:148-165` -/
def output (created : Bool) (p : String) (ls : List Line) : List (Act C A G Line) :=
  (if created then Act.trunc p else Act.append p) :: ls.map (Act.line p)

/-- Gauge part of `measurements`, `/repo/projects/generate_confs/generate.cpp:470-472,502-509` -/
def gaugeActs (P : Prog C A G L Line) (created : Bool) (conf : C) (iconf acc : Int) :
    List (Act C A G Line) :=
  P.gauge.flatMap fun m =>
    if measureIsDue m.each m.after iconf then output created m.path (m.lines conf iconf acc) else []

/-- One `RANGE_FERMIONIC_MEAS`, `/repo/projects/generate_confs/generate.cpp:474-480` -/
def fermOne (created : Bool) (conf : C) (iconf itheory : Int)
    (s : List (Act C A G Line) × (G × L)) (m : FMeas C G L Line) : List (Act C A G Line) × (G × L) :=
  if ifMeasIsDuePrint m itheory iconf then
    let r := m.run conf iconf s.2
    (s.1 ++ output created m.path r.1, r.2)
  else s

/-- Fermionic part of `measurements` for one theory, `/repo/projects/generate_confs/generate.cpp:514-532`
(the kinds of measurements are put in a single list). -/
def fermTheory (P : Prog C A G L Line) (created : Bool) (conf : C) (iconf : Int)
    (s : List (Act C A G Line) × (G × L)) (itheory : Nat) : List (Act C A G Line) × (G × L) :=
  if anyFermIsDue P itheory iconf then P.ferm.foldl (fermOne created conf iconf itheory) s else s

/-- `measurements`, `/repo/projects/generate_confs/generate.cpp:492-537` -/
def measurements (P : Prog C A G L Line) (created : Bool) (conf : C) (iconf acc : Int) (rnd : G × L) :
    List (Act C A G Line) × (G × L) :=
  (List.range P.nTheories).foldl (fermTheory P created conf iconf) (gaugeActs P created conf iconf acc, rnd)

/-- What `write_conf` puts in the file, `/repo/projects/generate_confs/generate.cpp:35-73` -/
def record (s : Proc C A G L) : Saved C A G :=
  { conf := s.conf, itraj := some s.itraj, rat := some s.rat, glb := some s.rnd.1 }

/-- `write_conf`, `/repo/projects/generate_confs/generate.cpp:35-84`: the old file is truncated first -/
def writeConf (p : String) (s : Proc C A G L) : List (Act C A G Line) :=
  [Act.beginW p, Act.endW p (record s)]

/-- `store_conf_if_necessary`, `/repo/projects/generate_confs/generate.cpp:540-550` -/
def storeIfNecessary (P : Prog C A G L Line) (s : Proc C A G L) :
    List (Act C A G Line) × Proc C A G L :=
  if P.storeEach ≠ 0 ∧ Int.tmod s.itraj P.storeEach = 0 then
    (writeConf (P.storePath s.itraj) s, { s with storedLast := true })
  else ([], { s with storedLast := false })

/-- `enough_time`, `/repo/projects/generate_confs/generate.cpp:561-575` -/
def enoughTime (P : Prog C A G L Line) (tInit now : ℚ) (s : Proc C A G L) : Bool :=
  if s.ntrajProd = 0 then true
  else decide (⌊(P.walltime - (now - tInit)) / s.maxTime⌋ ≥ 2)

/-- `check_if_continue`, `/repo/projects/generate_confs/generate.cpp:578-613`; `stop` tells whether the
file was there before the session -/
def checkIfContinue (P : Prog C A G L Line) (stop : Bool) (tInit : ℚ) (e : Env) (s : Proc C A G L) :
    List (Act C A G Line) × Bool :=
  if stop || e.stop then ([], false)
  else if e.restart then ([], false)
  else if s.itraj ≥ P.ntrajTot then ([Act.touchStop], false)
  else ([], enoughTime P tInit e.tCheck s)

/-- Point 1 of the loop, `/repo/projects/generate_confs/generate.cpp:1607-1614` -/
def produce (P : Prog C A G L Line) (s : Proc C A G L) : Proc C A G L × Int :=
  if P.ntrajTot ≠ 0 then
    let r := P.update s.itraj s.conf s.rat s.rnd
    ({ s with conf := r.1, rat := r.2.1, rnd := r.2.2.1, itraj := s.itraj + 1,
              ntrajProd := s.ntrajProd + 1 }, r.2.2.2)
  else (s, 1)

/-- Body of the loop, `/repo/projects/generate_confs/generate.cpp:1604-1632` -/
def body (P : Prog C A G L Line) (e : Env) (s : Proc C A G L) : List (Act C A G Line) × Proc C A G L :=
  let (s, acc) := produce P s
  let (am, rnd) := measurements P s.created s.conf s.itraj acc s.rnd
  let s := { s with rnd := rnd }
  let ar := if P.storeRunning ≠ 0 ∧ Int.tmod s.itraj P.storeRunning = 0 then writeConf P.path s else []
  let (as, s) := storeIfNecessary P s
  let s := { s with created := false }
  (am ++ ar ++ as, { s with maxTime := max s.maxTime (e.tEnd - e.tStart) })

/-- `run_program_for_production`, `/repo/projects/generate_confs/generate.cpp:1598-1635`.  The list of
environments says what happens at each iteration; if it ends before the program decides to stop, the
process has been killed between two iterations (last component false). -/
def loop (P : Prog C A G L Line) (stop : Bool) (tInit : ℚ) :
    List Env → Proc C A G L → List (Act C A G Line) × Proc C A G L × Bool
  | [], s => ([], s, false)
  | e :: es, s =>
    let (ac, go) := checkIfContinue P stop tInit e s
    if go then
      let (ab, s') := body P e s
      let (al, s'', fin) := loop P stop tInit es s'
      (ac ++ ab ++ al, s'', fin)
    else (ac, s, true)

/-- `init_rnd_gen`, `/repo/projects/generate_confs/generate.cpp:134-171`: the file `seed_new` wins over
the state found in the configuration, which wins over the seed of the input -/
def initRnd (P : Prog C A G L Line) (d : Disk C A G Line) (mess : Option G) :
    List (Act C A G Line) × (G × L) :=
  let g : G := match d.seedNew, mess with
    | some n, _ => P.seedGlb n
    | none, some g => g
    | none, none => P.seedGlb P.seed
  let lg := P.seedLoc g
  (if d.seedNew.isSome then [Act.rmSeedNew] else [], (lg.2, lg.1))

/-- `init_program_to_run` and `read_conf`, `/repo/projects/generate_confs/generate.cpp:93-133,174-209`;
none if the configuration cannot be read -/
def initRun (P : Prog C A G L Line) (d : Disk C A G Line) :
    Option (List (Act C A G Line) × Proc C A G L) :=
  match d.confs P.path with
  | some .torn => none
  | some (.full f) =>
    let (a, rnd) := initRnd P d f.glb
    some (a, { conf := f.conf, itraj := f.itraj.getD 0, rat := f.rat.getD P.noRat, rnd := rnd,
               created := false, ntrajProd := 0, storedLast := false, maxTime := 0 })
  | none =>
    let (a, rnd) := initRnd P d none
    let (c, rnd) := P.initial rnd
    some (a, { conf := c, itraj := 0, rat := P.noRat, rnd := rnd,
               created := true, ntrajProd := 0, storedLast := false, maxTime := 0 })

/-- `close_simulation`, `/repo/projects/generate_confs/generate.cpp:276-279` -/
def closeActs (P : Prog C A G L Line) (s : Proc C A G L) : List (Act C A G Line) :=
  if !s.storedLast && decide (s.ntrajProd > 0) then writeConf P.path s else []

/-- Outcome of a session. -/
structure Outcome (C A G L Line : Type) where
  /-- all what has been done on the disk -/
  acts : List (Act C A G Line)
  /-- state at the end of the loop -/
  proc : Proc C A G L
  /-- the program has reached its end -/
  ended : Bool

/-- A session in the mode which evolves, `/repo/projects/generate_confs/generate.cpp:227-273,1664-1711`;
none if the program stops while starting -/
def session (P : Prog C A G L Line) (tInit : ℚ) (es : List Env) (d : Disk C A G Line) :
    Option (Outcome C A G L Line) :=
  (initRun P d).map fun (ai, s0) =>
    let (al, s, fin) := loop P d.stop tInit es s0
    { acts := ai ++ al ++ (if fin then closeActs P s else []), proc := s, ended := fin }

/-- `run_program_for_analysis` after `init_program_to_analyze`,
`/repo/projects/generate_confs/generate.cpp:214-224,1638-1653`: the list of environments says whether
the file `stop` is there and what is the time after each configuration.  `ntraj_prod` is never touched,
so it is zero.  none if a configuration cannot be read (with what had been done so far). -/
def analysisLoop (P : Prog C A G L Line) (tInit : ℚ) (d : Disk C A G Line) :
    List String → List Env → Proc C A G L → List (Act C A G Line) × Proc C A G L × Bool
  | [], _, s => ([], s, true)
  | c :: cs, es, s =>
    match d.confs c with
    | some (.full f) =>
      let s := { s with conf := f.conf, itraj := f.itraj.getD s.itraj, rat := f.rat.getD s.rat }
      let (am, rnd) := measurements P s.created s.conf s.itraj 0 s.rnd
      let s := { s with rnd := rnd }
      match es with
      | [] => (am, s, false)
      | e :: es =>
        if !e.stop && enoughTime P tInit e.tCheck s then
          let (al, s', fin) := analysisLoop P tInit d cs es s
          (am ++ al, s', fin)
        else (am, s, true)
    | _ => ([], s, false)

/-- A session in the mode which analyses; `c0` is what is in the memory of the configuration before
anything has been read.  `/repo/projects/generate_confs/generate.cpp:214-224,1664-1711` -/
def analysisSession (P : Prog C A G L Line) (c0 : C) (tInit : ℚ) (es : List Env) (cs : List String)
    (d : Disk C A G Line) : List (Act C A G Line) × Proc C A G L × Bool :=
  let (a, rnd) := initRnd P d none
  let (al, s, fin) := analysisLoop P tInit d cs es
    { conf := c0, itraj := 0, rat := P.noRat, rnd := rnd, created := false, ntrajProd := 0,
      storedLast := false, maxTime := 0 }
  (a ++ al, s, fin)

end Nissa.Gen
