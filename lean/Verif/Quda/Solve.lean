import Verif.Ib.Vertex
import Mathlib.Data.Rat.Defs
import Mathlib.Algebra.Order.Field.Rat

set_option linter.all false

/-!
# A sequence of solves delegated to the QUDA library

`/repo/src/base/quda_bridge.cpp`, `quda_bridge.hpp`, `export_conf_to_external_solver.hpp`,
`/repo/src/inverters/twisted_clover/cg_invert_tmclovD_eoprec.cpp`, `/repo/projects/ib/prop.cpp`.

Simplifications.
* Doubles are rational numbers, the product `csw*kappa` is exact.
* What QUDA does is given by its documentation: it holds one gauge configuration, one clover term (computed by `loadCloverQuda` from
  the configuration held and from `clover_coeff`, and not changed by the load of another configuration) and one multigrid preconditioner; a solve
  uses what it holds together with the parameters passed.  The solution itself is represented by the operator that has been inverted.
* Deflation, smoothers, tolerances and verbosity, which have no effect on which system is solved, are left out.
-/

namespace Nissa.Quda

/-- Operator held or inverted by QUDA: configuration, clover term (configuration and coefficient it was computed from), kappa, mu. -/
structure Op (C : Type) where
  gauge : C
  clover : Option (C × ℚ)
  kappa : ℚ
  mu : ℚ
  deriving DecidableEq

/-- Multigrid preconditioner: configuration on which it was set up, and operator of the last set up or update. -/
structure Mg (C : Type) where
  builtOn : C
  op : Op C
  deriving DecidableEq

/-- What QUDA holds. -/
structure Lib (C : Type) where
  gauge : Option C
  clover : Option (C × ℚ)
  mg : Option (Mg C)

/-- `ExportRule`, `/repo/src/base/export_conf_to_external_solver.hpp:29` -/
inductive Rule
  | doTheCheck | forceExport | avoidExport
  deriving DecidableEq

/-- Global variables of nissa: `confTagOld`, `setup_valid` (`/repo/src/base/multiGridParams.hpp:114`), and the values stored by
`setup_quda_multigrid` (`/repo/src/base/quda_bridge.cpp:968-971`). -/
structure Mem (C T : Type) where
  confTagOld : T
  setup_valid : Bool
  storedMu : ℚ
  storedKappa : ℚ
  storedCloverCoeff : ℚ
  lib : Lib C

/-- Options of the run: `use_multiGrid` and `max_mass` (`/repo/src/base/multiGridParams.hpp:31,116`), `export_rule` and `relyOnTag`
(`export_conf_to_external_solver.hpp:30-31`). -/
structure Opt where
  use_multiGrid : Bool
  max_mass : ℚ
  rule : Rule
  relyOnTag : Bool

/-- A solve asked by nissa: current `confTag`, configuration passed, parameters. -/
structure Ask (C T : Type) where
  tag : T
  conf : C
  kappa : ℚ
  csw : ℚ
  mass : ℚ

/-- `inv_param`, for the fields which matter: `twistedClover` is `dslash_type=QUDA_TWISTED_CLOVER_DSLASH` -/
structure InvPar where
  twistedClover : Bool
  clover_coeff : ℚ
  kappa : ℚ
  mu : ℚ

variable {C T : Type} [DecidableEq T]

/-- `load_conf`: gauge freed and loaded.  `/repo/src/base/quda_bridge.hpp:127-143` -/
def load_conf (l : Lib C) (conf : C) : Lib C := { l with gauge := some conf }

/-- `export_gauge_conf_to_external_solver`: `none` is CRASH, else whether it was exported.
`/repo/src/base/export_conf_to_external_solver.hpp:39-120` -/
def exportConf (o : Opt) (a : Ask C T) (s : Mem C T) : Option (Bool × Mem C T) :=
  let after (s : Mem C T) := { s with lib := load_conf s.lib a.conf, setup_valid := false }
  match o.rule with
  | .avoidExport => some (false, s)
  | .forceExport => some (true, after s)
  | .doTheCheck =>
    if o.relyOnTag then
      if a.tag ≠ s.confTagOld then some (true, after { s with confTagOld := a.tag })
      else some (false, s)
    else none

/-- `load_clover_term`: clover freed and computed on the gauge held, `none`: no gauge.  `/repo/src/base/quda_bridge.cpp:331-339` -/
def load_clover_term (p : InvPar) (l : Lib C) : Option (Lib C) :=
  match l.gauge with
  | some g => some { l with clover := some (g, p.clover_coeff) }
  | none => none

/-- parameters passed to QUDA.  `/repo/src/base/quda_bridge.cpp:660-705` -/
def invPar (a : Ask C T) : InvPar :=
  if a.csw > 0 then { twistedClover := true, clover_coeff := a.csw * a.kappa, kappa := a.kappa, mu := -a.mass }
  else { twistedClover := false, clover_coeff := 0, kappa := a.kappa, mu := -a.mass }

/-- Operator which QUDA builds from what it holds and from the parameters; `none`: something is missing, and QUDA stops the program. -/
def libOp (p : InvPar) (l : Lib C) : Option (Op C) :=
  match l.gauge with
  | none => none
  | some g =>
    if p.twistedClover then
      match l.clover with
      | none => none
      | some c => some { gauge := g, clover := some c, kappa := p.kappa, mu := p.mu }
    else some { gauge := g, clover := none, kappa := p.kappa, mu := p.mu }

/-- `checkIfMultiGridAvailableAndRequired`.  `/repo/src/base/multiGridParams.hpp:123-131` -/
def mgRequired (o : Opt) (mass : ℚ) : Bool := o.use_multiGrid && decide (|mass| ≤ o.max_mass)

/-- `setup_quda_multigrid`.  `/repo/src/base/quda_bridge.cpp:966-1052` -/
def setupMg (p : InvPar) (s : Mem C T) : Option (Mem C T) :=
  let store (s : Mem C T) := { s with storedMu := p.mu, storedKappa := p.kappa, storedCloverCoeff := p.clover_coeff }
  if s.setup_valid = false then
    match libOp p s.lib with
    | none => none
    | some op => some (store { s with lib := { s.lib with mg := some { builtOn := op.gauge, op := op } }, setup_valid := true })
  else if s.storedMu ≠ p.mu ∨ s.storedKappa ≠ p.kappa ∨ s.storedCloverCoeff ≠ p.clover_coeff then
    match libOp p s.lib, s.lib.mg with
    | some op, some m => some (store { s with lib := { s.lib with mg := some { m with op := op } } })
    | _, _ => none
  else some (store s)

/-- Outcome of a solve: operator which was inverted, and preconditioner used. -/
structure Out (C : Type) where
  op : Op C
  mg : Option (Mg C)

/-- the clover term is computed only if the configuration was exported.  `/repo/src/base/quda_bridge.cpp:720-721` -/
def maybeClover (exported : Bool) (a : Ask C T) (s : Mem C T) : Option (Mem C T) :=
  if exported = true ∧ a.csw ≠ 0 then (load_clover_term (invPar a) s.lib).map fun l => { s with lib := l } else some s

/-- `/repo/src/base/quda_bridge.cpp:1352-1353` -/
def maybeMg (o : Opt) (a : Ask C T) (s : Mem C T) : Option (Mem C T) :=
  if mgRequired o a.mass then setupMg (invPar a) s else some s

/-- `solve_tmD`; `none`: the program stops.  `/repo/src/base/quda_bridge.cpp:1305-1388`, with `set_inverter_pars` `660-725` -/
def solve_tmD (o : Opt) (a : Ask C T) (s : Mem C T) : Option (Out C × Mem C T) :=
  match exportConf o a s with
  | none => none
  | some (exported, s1) =>
    match maybeClover exported a s1 with
    | none => none
    | some s2 =>
      match maybeMg o a s2 with
      | none => none
      | some s3 =>
        match libOp (invPar a) s3.lib with
        | none => none
        | some op => some ({ op := op, mg := if mgRequired o a.mass then s3.lib.mg else none }, s3)

/-- A list of solves, one after the other; the outcomes are in the order of the solves. -/
def solves (o : Opt) : List (Ask C T) → Mem C T → Option (List (Out C) × Mem C T)
  | [], s => some ([], s)
  | a :: l, s => do
    let (x, s) ← solve_tmD o a s
    let (xs, s) ← solves o l s
    some (x :: xs, s)

/-- State at the beginning of the program: `""` is the tag `e`.
`/repo/src/base/export_conf_to_external_solver.hpp:30-34`, `multiGridParams.hpp:114`, `quda_bridge.cpp:968-971` -/
def Mem.init (e : T) : Mem C T :=
  { confTagOld := e, setup_valid := false, storedMu := 0, storedKappa := 0, storedCloverCoeff := 0
    lib := { gauge := none, clover := none, mg := none } }

/-! ## Residue check -/

/-- A double resulting from a computation: a number, or not a number. -/
abbrev Dbl := Option ℚ

/-- `a>b` between doubles. -/
def gtD : Dbl → Dbl → Bool
  | some a, some b => decide (a > b)
  | _, _ => false

/-- Outcome of the check. -/
inductive Check
  | skipped | passed | warned | crashed
  deriving DecidableEq

/-- check of the residue at the end of `inv_tmclovD_cg_eoprec`; `check` is `check_inversion_residue`, `ref` the threshold.
`/repo/src/inverters/twisted_clover/cg_invert_tmclovD_eoprec.cpp:186-240` -/
def residueCheck (check : Int) (residue ref : Dbl) : Check :=
  if check ≠ 0 then
    if gtD residue ref then (if check > 1 then .crashed else .warned)
    else .passed
  else .skipped

/-! ## The solves of `ib` -/

/-- State of `ib`: path of the configuration, state of `get_updated_conf`, state of the external solver. -/
structure IbSt (Pa V Ch Th A T : Type) where
  path : Pa
  cs : Nissa.Vertex.CSt Unit V Ch Th A
  mem : Mem V T

/-- What `ib` does. -/
inductive IbOp (Pa V Ch Th A : Type)
  /-- `start_new_conf`: path read, configuration loaded -/
  | setup (path : Pa) (conf : V)
  /-- `generate_photon_stochastic_propagator` -/
  | newPhoton (photon : A)
  /-- `get_qprop` -/
  | solve (charge : Ch) (theta : Th) (kappa mass : ℚ)

/-- Functions of the physics and of the naming: boundary conditions, photon, and tag
(`conf_path`, charge and theta printed with 16 digits, `/repo/projects/ib/prop.cpp:81-88`). -/
structure IbEnv (Pa V Ch Th A T : Type) where
  adapt : Th → V → V
  addPhoton : A → Ch → V → V
  noCharge : Ch
  tagOf : Pa → Ch → Th → T
  cSW : ℚ
  opt : Opt

section
variable {Pa V Ch Th A : Type} [DecidableEq Ch] [DecidableEq Th]

/-- A step of `ib`, with the outcome and what was asked if it is a solve; `none`: the program stops.
`setup_conf` and `generate_photon_stochastic_propagator` as in `Vertex.lean`; solve: `/repo/projects/ib/prop.cpp:78-97` with `clover_run` -/
def ibStep (E : IbEnv Pa V Ch Th A T) (s : IbSt Pa V Ch Th A T) : IbOp Pa V Ch Th A →
    Option (Option (Ask V T × Out V) × IbSt Pa V Ch Th A T)
  | .setup path conf =>
    some (none, { s with path := path, cs := Nissa.Vertex.cstep E.adapt E.addPhoton E.noCharge s.cs (.setup fun _ => conf) })
  | .newPhoton a => some (none, { s with cs := Nissa.Vertex.cstep E.adapt E.addPhoton E.noCharge s.cs (.newPhoton a) })
  | .solve charge theta kappa mass =>
    let tag := E.tagOf s.path charge theta
    let r := Nissa.Vertex.get_updated_conf E.adapt E.addPhoton E.noCharge s.cs charge theta ()
    let a : Ask V T := { tag := tag, conf := r.2, kappa := kappa, csw := E.cSW, mass := mass }
    match solve_tmD { E.opt with relyOnTag := true } a s.mem with
    | none => none
    | some (x, mem) => some (some (a, x), { s with cs := r.1, mem := mem })

/-- A run of `ib`. -/
def ibRun (E : IbEnv Pa V Ch Th A T) : List (IbOp Pa V Ch Th A) → IbSt Pa V Ch Th A T →
    Option (List (Ask V T × Out V) × IbSt Pa V Ch Th A T)
  | [], s => some ([], s)
  | op :: l, s =>
    match ibStep E s op with
    | none => none
    | some (x, s) =>
      match ibRun E l s with
      | none => none
      | some (xs, s) => some (x.toList ++ xs, s)

end

/-! ## Specification -/

/-- The operator asked: configuration and clover term of the configuration passed, with the sign of mu of the basis of QUDA. -/
def asked (a : Ask C T) : Op C :=
  { gauge := a.conf, clover := if a.csw = 0 then none else some (a.conf, a.csw * a.kappa), kappa := a.kappa, mu := -a.mass }

/-- The outcome is right: the operator inverted is the one asked; the multigrid preconditioner, if the mass is below the maximal one
for which it has to be used, was set up on the configuration passed and updated to the operator asked. -/
def Right (o : Opt) (a : Ask C T) (x : Out C) : Prop :=
  x.op = asked a ∧
  x.mg = if o.use_multiGrid = true ∧ |a.mass| ≤ o.max_mass then some { builtOn := a.conf, op := asked a } else none

/-- Tags are faithful: if two consecutive solves have the same tag, they have the same configuration and the same clover term. -/
def Faithful (l : List (Ask C T)) : Prop :=
  l.IsChain fun a b => a.tag = b.tag → a.conf = b.conf ∧ (asked a).clover = (asked b).clover

end Nissa.Quda
