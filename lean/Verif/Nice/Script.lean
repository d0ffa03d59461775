import Mathlib.Data.List.Basic
import Mathlib.Logic.Basic

/-! # The evaluator of the scripts of the `nice` program

Models `/repo/projects/nice/nASTy.hpp`: the nodes of the tree, the values, the environments and the `Evaluator`.  The parser is an external library (`parsePact.hpp`), not in the
repository: the model starts from the tree.  `errorEmitter` (also external) is taken to stop the program (`Res.err`).  Undefined behaviour of C++ is `Res.ub`.  A `shared_ptr<Value>` is the number of a
cell in a list that only grows; a `shared_ptr<Environment>` the number of an environment.  `F` is the type `double`, with the operations in `Flt`, left arbitrary.  The evaluation of the two
arguments of a binary operator is in the order chosen by the compiler: `lr`.
Not modelled: `HObject` (no object is provided by the evaluator), the host functions `rand`, `srand`, `to_string`, the format of what is printed, `callFrames` (a vector which only grows and is never read). -/

set_option linter.all false

namespace Nissa.Nice

/-- `AssignMode`.  `/repo/projects/nice/nASTy.hpp:170` -/
inductive Mode | plain | prod | div | sum | sub
deriving DecidableEq

/-- the binary operators.  `/repo/projects/nice/nASTy.hpp:850-883` -/
inductive Bop | sum | diff | prod | div | mod | lt | gt | le | ge | eq | ne | or | and
deriving DecidableEq

/-- the unary operators.  `/repo/projects/nice/nASTy.hpp:826-848` -/
inductive Uop | not | plus | minus
deriving DecidableEq

/-- the postfix operators.  `/repo/projects/nice/nASTy.hpp:885-906` -/
inductive Pop | inc | dec
deriving DecidableEq

/-- the constants that the parser puts in a `ValueNode`.  `/repo/projects/nice/nASTy.hpp:445-448,472,815-818` -/
inductive Lit (F : Type) | str (s : String) | int (i : Int) | dbl (x : F) | emptyList

/-- `ASTNode`.  A parameter is its name, `isRef`, and the default; a member is its name and the default; an argument is its name (empty if not given) and the expression.
`/repo/projects/nice/nASTy.hpp:176-245,414-640` -/
inductive Node (F : Type)
  | nodes (list : List (Node F))
  | unaryRef (arg : Node F)
  | unOp (op : Uop) (arg : Node F)
  | binOp (op : Bop) (arg1 arg2 : Node F)
  | for_ (subNodes : List (Node F))
  | if_ (subNodes : List (Node F))
  | id (name : String)
  | postfix_ (op : Pop) (arg : Node F)
  | func (pars : List (String × Bool × Option (Node F))) (body : Node F)
  | funcDef (name : String) (pars : List (String × Bool × Option (Node F))) (body : Node F)
  | funcCall (fun_ : String) (args : List (String × Node F))
  | subscribe (base subscr : Node F)
  | memberAccess (base : Node F) (member : String)
  | structDef (name : String) (members : List (String × Option (Node F)))
  | ret (arg : Node F)
  | value (v : Lit F)
  | assign (lhs rhs : Node F) (mode : Mode)

/-- a parameter of a function -/
abbrev Par (F : Type) := String × Bool × Option (Node F)

/-- a member of a struct -/
abbrev Member (F : Type) := String × Option (Node F)

/-- `VARIADIC_PAR_NAME`.  `/repo/projects/nice/nASTy.hpp:468` -/
def variadicName : String := "__VA__ARGS__"

/-- `FuncParNode::getVariadic`: the parser gives 1 for `...` and 2 for `& ...`, and the number is converted to bool.  `/repo/projects/nice/nASTy.hpp:77-78,470-473,505-521` -/
def variadicPar (F : Type) (isRef : Nat) : Par F := (variadicName, isRef != 0, some (.value .emptyList))

/-- `isVariadic`.  `/repo/projects/nice/nASTy.hpp:500-503` -/
def isVariadic {F : Type} (pars : List (Par F)) : Bool :=
  match pars.getLast? with
  | none => false
  | some p => p.1 == variadicName

/-- the host functions modelled.  `/repo/projects/nice/nASTy.hpp:1139-1299` -/
inductive Host | print | makeVec | forEachEl | seq | sqrt | exp | sin | cos | tan | pow
deriving DecidableEq

/-- `ValueT`; `unset` is `monostate`.  `/repo/projects/nice/nASTy.hpp:267-345` -/
inductive Value (F : Type)
  | unset
  | str (s : String)
  | int (i : Int)
  | dbl (x : F)
  | fn (pars : List (Par F)) (body : Node F) (env : Nat)
  | host (h : Host)
  | ref (cell : Nat)
  | list (data : List Nat)
  | sdef (name : String) (members : List (Member F))
  | struct (name : String) (names : List (Member F)) (members : List Nat)

/-- operations on `double` -/
structure Flt (F : Type) where
  ofInt : Int → F
  add : F → F → F
  sub : F → F → F
  mul : F → F → F
  div : F → F → F
  neg : F → F
  lt : F → F → Bool
  le : F → F → Bool
  eq : F → F → Bool
  nonzero : F → Bool
  math : Host → F → F
  pow : F → F → F
  pi : F

/-- `Environment`.  `/repo/projects/nice/nASTy.hpp:642-646` -/
structure Env where
  parent : Option Nat
  vars : List (String × Nat)

/-- memory, current environment (`curEnv`), values printed -/
structure St (F : Type) where
  cells : List (Value F)
  envs : List Env
  cur : Nat
  out : List (Value F)

/-- outcome: `err` is `errorEmitter`, `ub` undefined behaviour, `more` means that the steps allowed are not enough -/
inductive Res (F α : Type) | ok (a : α) (s : St F) | err | ub | more

/-- computations -/
def M (F α : Type) := St F → Res F α

variable {F : Type}

/-- sequence of computations -/
def M.bind {α β : Type} (m : M F α) (f : α → M F β) : M F β := fun s =>
  match m s with
  | .ok a s' => f a s'
  | .err => .err
  | .ub => .ub
  | .more => .more

instance : Monad (M F) where
  pure a := fun s => .ok a s
  bind := M.bind

/-- `errorEmitter` -/
def err {α : Type} : M F α := fun _ => .err
/-- undefined behaviour -/
def ub {α : Type} : M F α := fun _ => .ub
/-- steps finished -/
def more {α : Type} : M F α := fun _ => .more

/-- content of a cell -/
def read (c : Nat) : M F (Value F) := fun s =>
  match s.cells[c]? with
  | some v => .ok v s
  | none => .ub

/-- assignment to a cell -/
def write (c : Nat) (v : Value F) : M F Unit := fun s => .ok () { s with cells := s.cells.set c v }

/-- `std::make_shared<Value>` -/
def alloc (v : Value F) : M F Nat := fun s => .ok s.cells.length { s with cells := s.cells ++ [v] }

/-- search of a name in the list of the variables of an environment -/
def lookup (vars : List (String × Nat)) (name : String) : Option Nat := (vars.find? fun p => p.1 == name).map (·.2)

/-- `Environment::find`; the first argument bounds the number of parents, which is less than the number of environments.  `/repo/projects/nice/nASTy.hpp:658-667` -/
def findIn (envs : List Env) : Nat → Nat → String → Option Nat
  | 0, _, _ => none
  | k + 1, e, name =>
    match envs[e]? with
    | none => none
    | some env =>
      match lookup env.vars name with
      | some c => some c
      | none =>
        match env.parent with
        | some p => findIn envs k p name
        | none => none

/-- `find` from the current environment -/
def St.find (s : St F) (name : String) : Option Nat := findIn s.envs s.envs.length s.cur name

/-- addition of a variable to an environment -/
def addVar (envs : List Env) (e : Nat) (name : String) (c : Nat) : List Env := envs.modify e fun env => { env with vars := env.vars ++ [(name, c)] }

/-- `Environment::at`.  `/repo/projects/nice/nASTy.hpp:669-677` -/
def at_ (name : String) : M F Nat := fun s =>
  match s.find name with
  | some c => .ok c s
  | none => .err

/-- `Environment::getRefOrInsert`.  `/repo/projects/nice/nASTy.hpp:679-685` -/
def getRefOrInsert (name : String) : M F Nat := fun s =>
  match s.find name with
  | some c => .ok c s
  | none => .ok s.cells.length { s with cells := s.cells ++ [.unset], envs := addVar s.envs s.cur name s.cells.length }

/-- `std::make_shared<Environment>` -/
def newEnv (parent : Option Nat) : M F Nat := fun s => .ok s.envs.length { s with envs := s.envs ++ [⟨parent, []⟩] }

/-- `EnvironmentWindUnwinder`: the environment is changed and put back at the end.  `/repo/projects/nice/nASTy.hpp:1085-1102` -/
def withEnv {α : Type} (e : Nat) (m : M F α) : M F α := fun s =>
  match m { s with cur := e } with
  | .ok a s' => .ok a { s' with cur := s.cur }
  | .err => .err
  | .ub => .ub
  | .more => .more

/-- current environment -/
def cur : M F Nat := fun s => .ok s.cur s

/-- `pushNewEnvironment`.  `/repo/projects/nice/nASTy.hpp:1104-1107` -/
def pushed {α : Type} (m : M F α) : M F α := do
  let p ← cur
  let e ← newEnv (some p)
  withEnv e m

/-- `EvalResult`.  `/repo/projects/nice/nASTy.hpp:990-1002` -/
structure ER (F : Type) where
  ref : Option Nat
  value : Option (Value F)

/-- `{}` -/
def ER.none_ : ER F := ⟨none, none⟩

/-- `asLhs`.  `/repo/projects/nice/nASTy.hpp:1023-1036` -/
def asLhs (r : ER F) : M F Nat :=
  match r.ref with
  | some c => pure c
  | none => err

/-- `ensureInitialized`.  `/repo/projects/nice/nASTy.hpp:1038-1042` -/
def ensureInitialized (v : Value F) : M F (Value F) :=
  match v with
  | .unset => err
  | v => pure v

/-- `asRhs`: dereferencing an empty `optional` is undefined.  `/repo/projects/nice/nASTy.hpp:1044-1079` -/
def asRhs (r : ER F) : M F (Value F) :=
  match r.ref with
  | some c => do ensureInitialized (← read c)
  | none =>
    match r.value with
    | some v => pure v
    | none => ub

/-- the result of an operation on `int` -/
def intRes (i : Int) : M F (Value F) := if -2147483648 ≤ i ∧ i < 2147483648 then pure (.int i) else ub

/-- `bool` put in a `Value` becomes `int` -/
def boolRes (b : Bool) : M F (Value F) := pure (.int (if b then 1 else 0))

/-- two `int` -/
def intOp (op : Bop) (a b : Int) : M F (Value F) :=
  match op with
  | .sum => intRes (a + b)
  | .diff => intRes (a - b)
  | .prod => intRes (a * b)
  | .div => if b = 0 then ub else intRes (Int.tdiv a b)
  | .mod => if b = 0 ∨ (a = -2147483648 ∧ b = -1) then ub else intRes (Int.tmod a b)
  | .lt => boolRes (decide (a < b))
  | .gt => boolRes (decide (b < a))
  | .le => boolRes (decide (a ≤ b))
  | .ge => boolRes (decide (b ≤ a))
  | .eq => boolRes (decide (a = b))
  | .ne => boolRes (decide (a ≠ b))
  | .or => boolRes (decide (a ≠ 0) || decide (b ≠ 0))
  | .and => boolRes (decide (a ≠ 0) && decide (b ≠ 0))

/-- two `double` -/
def dblOp (O : Flt F) (op : Bop) (a b : F) : M F (Value F) :=
  match op with
  | .sum => pure (.dbl (O.add a b))
  | .diff => pure (.dbl (O.sub a b))
  | .prod => pure (.dbl (O.mul a b))
  | .div => pure (.dbl (O.div a b))
  | .mod => err
  | .lt => boolRes (O.lt a b)
  | .gt => boolRes (O.lt b a)
  | .le => boolRes (O.le a b)
  | .ge => boolRes (O.le b a)
  | .eq => boolRes (O.eq a b)
  | .ne => boolRes (!O.eq a b)
  | .or => boolRes (O.nonzero a || O.nonzero b)
  | .and => boolRes (O.nonzero a && O.nonzero b)

/-- two strings -/
def strOp (op : Bop) (a b : String) : M F (Value F) :=
  match op with
  | .sum => pure (.str (a ++ b))
  | .lt => boolRes (decide (a < b))
  | .gt => boolRes (decide (b < a))
  | .le => boolRes (!decide (b < a))
  | .ge => boolRes (!decide (a < b))
  | .eq => boolRes (a == b)
  | .ne => boolRes (a != b)
  | _ => err

/-- two `monostate` -/
def unsetOp (op : Bop) : M F (Value F) :=
  match op with
  | .lt | .gt | .ne => boolRes false
  | .le | .ge | .eq => boolRes true
  | _ => err

/-- conversion to bool in `!`, `and`, `or`: a `std::function` also can -/
def truth (O : Flt F) : Value F → Option Bool
  | .int i => some (decide (i ≠ 0))
  | .dbl x => some (O.nonzero x)
  | .host _ => some true
  | _ => none

/-- the operation of a `BinOpNode`: those that C++ has between the two types.  `/repo/projects/nice/nASTy.hpp:850-883` -/
def binop (O : Flt F) (op : Bop) (a b : Value F) : M F (Value F) :=
  match a, b with
  | .int a, .int b => intOp op a b
  | .int a, .dbl b => dblOp O op (O.ofInt a) b
  | .dbl a, .int b => dblOp O op a (O.ofInt b)
  | .dbl a, .dbl b => dblOp O op a b
  | .str a, .str b => strOp op a b
  | .unset, .unset => unsetOp op
  | a, b =>
    match op, truth O a, truth O b with
    | .or, some a, some b => boolRes (a || b)
    | .and, some a, some b => boolRes (a && b)
    | _, _, _ => err

/-- the operation of a `UnOpNode`.  `/repo/projects/nice/nASTy.hpp:826-848` -/
def unop (O : Flt F) (op : Uop) (a : Value F) : M F (Value F) :=
  match op, a with
  | .not, a =>
    match truth O a with
    | some b => boolRes (!b)
    | none => err
  | .plus, .int a => pure (.int a)
  | .plus, .dbl a => pure (.dbl a)
  | .minus, .int a => intRes (-a)
  | .minus, .dbl a => pure (.dbl (O.neg a))
  | _, _ => err

/-- the new content of the argument of a postfix operator.  `/repo/projects/nice/nASTy.hpp:885-906` -/
def popVal (O : Flt F) (op : Pop) (a : Value F) : M F (Value F) :=
  match op, a with
  | .inc, .int a => intRes (a + 1)
  | .dec, .int a => intRes (a - 1)
  | .inc, .dbl a => pure (.dbl (O.add a (O.ofInt 1)))
  | .dec, .dbl a => pure (.dbl (O.sub a (O.ofInt 1)))
  | _, _ => err

/-- conversion to bool of the conditions: only `int` and `double`.  `/repo/projects/nice/nASTy.hpp:1488-1497,1507-1516` -/
def toBool (O : Flt F) (v : Value F) : M F Bool :=
  match v with
  | .int i => pure (decide (i ≠ 0))
  | .dbl x => pure (O.nonzero x)
  | _ => err

/-- `EvalResult::set` and `trySet` on a `Value`: the class has only the plain assignment.  `/repo/projects/nice/nASTy.hpp:962-986,1004-1021` -/
def set_ (mode : Mode) (l : ER F) (v : Value F) : M F Unit :=
  match l.ref with
  | none => err
  | some c =>
    match mode with
    | .plain => write c v
    | _ => err

/-- is the pointer of a reference null?  References are made only from cells -/
def refNull (_ : Nat) : Bool := false

/-- what the evaluator is asked to do: a node, the loop of a `for` after the initialisation, `callFunction` -/
inductive Cmd (F : Type)
  | node (n : Node F)
  | loop (check incr body : Node F)
  | call (f : Value F) (args : List Nat)

/-- element of `subNodes`: reading out of the vector is undefined -/
def sub (l : List (Node F)) (i : Nat) : M F (Node F) :=
  match l[i]? with
  | some n => pure n
  | none => ub

/-- the loop of `seq`: `none` is the overflow.  `/repo/projects/nice/nASTy.hpp:1234-1235` -/
def seqLoop (max delta : Int) : Nat → Int → Option (List Int)
  | 0, _ => none
  | k + 1, i => if i < max then (if -2147483648 ≤ i + delta ∧ i + delta < 2147483648 then (seqLoop max delta k (i + delta)).map (i :: ·) else none) else some []

/-- allocation of many values -/
def allocs : List (Value F) → M F (List Nat)
  | [] => pure []
  | v :: l => do
    let c ← alloc v
    let r ← allocs l
    pure (c :: r)

/-- content of many cells -/
def reads : List Nat → M F (List (Value F))
  | [] => pure []
  | c :: l => do
    let v ← read c
    let r ← reads l
    pure (v :: r)

/-- the values have to be `int` -/
def ints : List (Value F) → M F (List Int)
  | [] => pure []
  | .int i :: l => do
    let r ← ints l
    pure (i :: r)
  | _ => err

/-- `seq`.  `/repo/projects/nice/nASTy.hpp:1186-1238` -/
def hostSeq (args : List Nat) : M F (Value F) := do
  if 3 < args.length then err
  else
    let p ← ints (← reads args)
    let (min, delta, max) ← (match p with
      | [p0] => pure (0, 1, p0)
      | [p0, p1] => pure (p0, 1, p1)
      | [p0, p1, p2] => pure (p0, p1, p2)
      | _ => err : M F (Int × Int × Int))
    if delta = 0 then err
    else
      match seqLoop max delta 8589934592 min with
      | none => ub
      | some l =>
        let cs ← allocs (l.map Value.int)
        pure (.list cs)

/-- a number as `double` -/
def asDbl (O : Flt F) (v : Value F) : M F F :=
  match v with
  | .int i => pure (O.ofInt i)
  | .dbl x => pure x
  | _ => err

/-- the calls of `forEachEl`: each element itself, not a copy, is the argument -/
def eachEl (rec : Cmd F → M F (ER F)) (f : Nat) : List Nat → M F Unit
  | [] => pure ()
  | c :: l => do
    let fv ← read f
    let _ ← rec (.call fv [c])
    eachEl rec f l

/-- the host functions.  `/repo/projects/nice/nASTy.hpp:1139-1299` -/
def callHost (O : Flt F) (rec : Cmd F → M F (ER F)) (h : Host) (args : List Nat) : M F (Value F) :=
  match h with
  | .print => do
    let vs ← reads args
    fun s => .ok .unset { s with out := s.out ++ vs }
  | .makeVec => pure (.list args)
  | .forEachEl =>
    match args with
    | [l, f] => do
      match ← read l with
      | .list data => do
        eachEl rec f data
        pure .unset
      | _ => err
    | _ => err
  | .seq => hostSeq args
  | .pow =>
    match args with
    | [a, b] => do
      let x ← asDbl O (← read a)
      let y ← asDbl O (← read b)
      pure (.dbl (O.pow x y))
    | _ => err
  | h =>
    match args with
    | [a] => do
      let x ← asDbl O (← read a)
      pure (.dbl (O.math h x))
    | _ => err

/-- the parameters put in the new environment.  `/repo/projects/nice/nASTy.hpp:1335-1352` -/
def bindPars : List (Par F) → List Nat → M F Unit
  | par :: pars, arg :: args => do
    let arg ← (if par.2.1 then do
        match ← read arg with
        | .ref c => pure c
        | _ => err
      else pure arg : M F Nat)
    let e ← cur
    (fun s => match s.envs[e]? with
      | none => .ub
      | some env => if (lookup env.vars par.1).isSome then .err else .ok () { s with envs := addVar s.envs e par.1 arg })
    bindPars pars args
  | _, _ => pure ()

/-- `callFunction` with `callEmbeddedFunction` and `createStruct`.  `/repo/projects/nice/nASTy.hpp:1302-1372` -/
def callFunction (O : Flt F) (rec : Cmd F → M F (ER F)) (f : Value F) (args : List Nat) : M F (ER F) :=
  match f with
  | .fn pars body env =>
    if args.length ≠ pars.length then err
    else do
      let e ← newEnv (some env)
      withEnv e (do
        bindPars pars args
        rec (.node body))
  | .host h => do
    let v ← callHost O rec h args
    pure ⟨none, some v⟩
  | .sdef name members => if args.length ≠ members.length then err else pure ⟨none, some (.struct name members args)⟩
  | _ => err

/-- evaluation of the arguments of a call; the `FuncArg` around each is left out.  `/repo/projects/nice/nASTy.hpp:1558-1578` -/
def evalArgs (rec : Cmd F → M F (ER F)) : List (String × Node F) → M F (List (String × Nat))
  | [] => pure []
  | (name, expr) :: l => do
    let v ← asRhs (← rec (.node expr))
    let c ← alloc v
    let r ← evalArgs rec l
    pure ((name, c) :: r)

/-- an argument added to the list of a variadic function -/
def pushVariadic (slots : List (Option Nat)) (arg : Nat) : M F Unit :=
  match slots.getLast? with
  | some (some c) => do
    match ← read c with
    | .list l => write c (.list (l ++ [arg]))
    | _ => ub
  | _ => ub

/-- `insertNamedOrUnnamed`.  `/repo/projects/nice/nASTy.hpp:1621-1666,1691-1730` -/
def insertArgs (names : List String) (variadic insertNamed : Bool) : List (String × Nat) → List (Option Nat) → M F (List (Option Nat))
  | [], slots => pure slots
  | (name, arg) :: l, slots =>
    let isNamed := name != ""
    if isNamed != insertNamed then insertArgs names variadic insertNamed l slots
    else
      let iPar := if isNamed then names.findIdx (· == name) else slots.findIdx (fun o => o.isNone)
      if isNamed && iPar == names.length then err
      else if slots.length ≤ iPar then
        if variadic then do
          pushVariadic slots arg
          insertArgs names variadic insertNamed l slots
        else err
      else insertArgs names variadic insertNamed l (slots.set iPar (some arg))

/-- the defaults of the parameters not given.  `/repo/projects/nice/nASTy.hpp:1671-1681,1735-1748` -/
def fillDefaults (rec : Cmd F → M F (ER F)) : List (Option (Node F)) → List (Option Nat) → M F (List Nat)
  | _ :: ds, some c :: l => do
    let r ← fillDefaults rec ds l
    pure (c :: r)
  | some d :: ds, none :: l => do
    let v ← asRhs (← rec (.node d))
    let c ← alloc v
    let r ← fillDefaults rec ds l
    pure (c :: r)
  | none :: _, none :: _ => err
  | _, _ => pure []

/-- the arguments in the order of the parameters, for the three kinds of functions.  `/repo/projects/nice/nASTy.hpp:1580-1754` -/
def bindArgs (rec : Cmd F → M F (ER F)) (f : Value F) (as : List (String × Nat)) : M F (List Nat) :=
  match f with
  | .host _ => if as.any (fun a => a.1 != "") then err else pure (as.map (·.2))
  | .fn pars _ _ => do
    let names := pars.map (·.1)
    let slots ← (if isVariadic pars then do
        let c ← alloc (.list [])
        pure (List.replicate (pars.length - 1) none ++ [some c])
      else pure (List.replicate pars.length none) : M F (List (Option Nat)))
    let slots ← insertArgs names (isVariadic pars) false as slots
    let slots ← insertArgs names (isVariadic pars) true as slots
    fillDefaults rec (pars.map (·.2.2)) slots
  | .sdef _ members => do
    let names := members.map (·.1)
    let slots ← insertArgs names false false as (List.replicate members.length none)
    let slots ← insertArgs names false true as slots
    fillDefaults rec (members.map (·.2)) slots
  | _ => err

/-- is a statement a `ReturnNode`? -/
def isRet : Node F → Bool
  | .ret _ => true
  | _ => false

/-- the loop on the statements.  `/repo/projects/nice/nASTy.hpp:1776-1789` -/
def evalNodes (rec : Cmd F → M F (ER F)) : List (Node F) → M F (ER F)
  | [] => pure ER.none_
  | n :: l =>
    if isRet n then rec (.node n)
    else do
      let _ ← rec (.node n)
      evalNodes rec l

/-- the value of the base of a subscription or member access.  `/repo/projects/nice/nASTy.hpp:1424,1455` -/
def baseValue (b : ER F) : M F (Value F) :=
  match b.ref with
  | some c => read c
  | none =>
    match b.value with
    | some v => pure v
    | none => ub

/-- the element or member found: a reference if the base was one -/
def found (b : ER F) (c : Nat) : M F (ER F) :=
  match b.ref with
  | some _ => pure ⟨some c, none⟩
  | none => do
    let v ← read c
    pure ⟨none, some v⟩

/-- a literal as value -/
def ofLit : Lit F → Value F
  | .str s => .str s
  | .int i => .int i
  | .dbl x => .dbl x
  | .emptyList => .list []

/-- definition of a name.  `/repo/projects/nice/nASTy.hpp:1407-1418,1756-1767` -/
def define (name : String) (v : Value F) : M F (ER F) := fun s =>
  match s.find name with
  | some _ => .err
  | none => (do
      let c ← getRefOrInsert name
      write c v
      pure ER.none_ : M F (ER F)) s

/-- one step of the evaluator (`Evaluator::operator()` on each kind of node).  `/repo/projects/nice/nASTy.hpp:1382-1820` -/
def step (O : Flt F) (lr : Bool) (rec : Cmd F → M F (ER F)) : Cmd F → M F (ER F)
  | .call f args => callFunction O rec f args
  | .loop check incr body => do
    let b ← toBool O (← asRhs (← rec (.node check)))
    if b then do
      let _ ← rec (.node body)
      let _ ← rec (.node incr)
      rec (.loop check incr body)
    else pure ER.none_
  | .node (.value v) => pure ⟨none, some (ofLit v)⟩
  | .node (.id name) => do
    let c ← getRefOrInsert name
    pure ⟨some c, none⟩
  | .node (.unaryRef arg) => do
    let tmp ← rec (.node arg)
    match tmp.ref with
    | none => err
    | some c => if !refNull c then err else pure ⟨none, some (.ref c)⟩
  | .node (.structDef name members) => define name (.sdef name members)
  | .node (.subscribe base subscr) => do
    let b ← rec (.node base)
    let s ← asRhs (← rec (.node subscr))
    let bv ← baseValue b
    match bv with
    | .list data =>
      match s with
      | .int i => if i < 0 then err else
        match data[i.toNat]? with
        | none => err
        | some c => found b c
      | _ => err
    | _ => err
  | .node (.memberAccess base member) => do
    let b ← rec (.node base)
    let bv ← baseValue b
    match bv with
    | .struct _ names members =>
      let i := (names.map (·.1)).findIdx (· == member)
      match members[i]? with
      | none => err
      | some c => found b c
    | _ => err
  | .node (.for_ subNodes) => pushed do
    let _ ← rec (.node (← sub subNodes 0))
    rec (.loop (← sub subNodes 1) (← sub subNodes 2) (← sub subNodes 3))
  | .node (.if_ subNodes) => pushed do
    let b ← toBool O (← asRhs (← rec (.node (← sub subNodes 0))))
    if b then do
      let _ ← rec (.node (← sub subNodes 1))
      pure ER.none_
    else if 2 ≤ subNodes.length then do
      let _ ← rec (.node (← sub subNodes 2))
      pure ER.none_
    else pure ER.none_
  | .node (.funcCall name args) => do
    let as ← evalArgs rec args
    let cf ← at_ name
    let cells ← bindArgs rec (← read cf) as
    let f ← read cf
    rec (.call f cells)
  | .node (.funcDef name pars body) => do
    let e ← cur
    define name (.fn pars body e)
  | .node (.func pars body) => do
    let e ← cur
    pure ⟨none, some (.fn pars body e)⟩
  | .node (.nodes list) => pushed (evalNodes rec list)
  | .node (.ret arg) => rec (.node arg)
  | .node (.postfix_ op arg) => do
    let c ← asLhs (← rec (.node arg))
    let v ← read c
    let v' ← popVal O op v
    write c v'
    pure ⟨none, some v⟩
  | .node (.assign lhs rhs mode) => do
    let l ← rec (.node lhs)
    let v ← asRhs (← rec (.node rhs))
    set_ mode l v
    pure l
  | .node (.unOp op arg) => do
    let v ← unop O op (← asRhs (← rec (.node arg)))
    pure ⟨none, some v⟩
  | .node (.binOp op arg1 arg2) => do
    if lr then
      let a ← asRhs (← rec (.node arg1))
      let b ← asRhs (← rec (.node arg2))
      let v ← binop O op a b
      pure ⟨none, some v⟩
    else
      let b ← asRhs (← rec (.node arg2))
      let a ← asRhs (← rec (.node arg1))
      let v ← binop O op a b
      pure ⟨none, some v⟩

/-- the evaluator, with at most `n` nested calls -/
def eval (O : Flt F) (lr : Bool) : Nat → Cmd F → M F (ER F)
  | 0 => fun _ => more
  | n + 1 => step O lr (eval O lr n)

/-- the variables before the script starts.  `/repo/projects/nice/nASTy.hpp:1109-1300` -/
def initSt (O : Flt F) : St F where
  cells := [.dbl O.pi, .host .print, .host .makeVec, .host .forEachEl, .host .seq, .host .sqrt, .host .exp, .host .sin, .host .cos, .host .tan, .host .pow]
  envs := [⟨none, [("M_PI", 0), ("print", 1), ("makeVec", 2), ("forEachEl", 3), ("seq", 4), ("sqrt", 5), ("exp", 6), ("sin", 7), ("cos", 8), ("tan", 9), ("pow", 10)]⟩]
  cur := 0
  out := []

end Nissa.Nice
