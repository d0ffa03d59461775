import Verif.Nice.PropsScript4
import Mathlib.Data.List.Nodup

/-! # C75: the core of the language agrees with a semantics on a stack of scopes -/

set_option linter.all false

namespace Nissa.Nice

variable {F : Type}

/-! ## Specification: the core language and its meaning -/

/-- expressions: integer constants, variables, operators -/
inductive Exp
  | num (i : Int)
  | var (x : String)
  | un (op : Uop) (a : Exp)
  | bin (op : Bop) (a b : Exp)

/-- statements: `x = e;`, `x++;`, `x--;`, `{ ... }`, `if(c) a else b`, `for(init;c;incr) body` -/
inductive Stm
  | assign (x : String) (e : Exp)
  | step (op : Pop) (x : String)
  | block (l : List Stm)
  | ite (c : Exp) (a b : Stm)
  | for_ (init : Stm) (c : Exp) (incr body : Stm)

/-- the tree of an expression -/
def treeE : Exp → Node F
  | .num i => .value (.int i)
  | .var x => .id x
  | .un op a => .unOp op (treeE a)
  | .bin op a b => .binOp op (treeE a) (treeE b)

mutual
/-- the tree of a statement -/
def treeS : Stm → Node F
  | .assign x e => .assign (.id x) (treeE e) .plain
  | .step op x => .postfix_ op (.id x)
  | .block l => .nodes (treeL l)
  | .ite c a b => .if_ [treeE c, treeS a, treeS b]
  | .for_ i c n b => .for_ [treeS i, treeE c, treeS n, treeS b]
/-- the trees of the statements of a block -/
def treeL : List Stm → List (Node F)
  | [] => []
  | a :: l => treeS a :: treeL l
end

/-- a scope gives values to names; the innermost scope is the first -/
abbrev Stack (F : Type) := List (List (String × Value F))

/-- the value a scope gives to a name -/
def look1 : List (String × Value F) → String → Option (Value F)
  | [], _ => none
  | p :: l, x => if p.1 = x then some p.2 else look1 l x

/-- the value of a name: that of the innermost scope which has it -/
def look : Stack F → String → Option (Value F)
  | [], _ => none
  | sc :: σ, x =>
    match look1 sc x with
    | some v => some v
    | none => look σ x

/-- a new value for a name of a scope -/
def put1 : List (String × Value F) → String → Value F → List (String × Value F)
  | [], _, _ => []
  | p :: l, x, v => if p.1 = x then (x, v) :: l else p :: put1 l x v

/-- a new value for a name, in the innermost scope which has it -/
def put : Stack F → String → Value F → Stack F
  | [], _, _ => []
  | sc :: σ, x, v =>
    match look1 sc x with
    | some _ => put1 sc x v :: σ
    | none => sc :: put σ x v

/-- a new name in the innermost scope -/
def declare : Stack F → String → Value F → Stack F
  | [], _, _ => []
  | sc :: σ, x, v => (sc ++ [(x, v)]) :: σ

/-- the value of an operation (of a computation that does not use the memory), if there is one -/
def pureVal {α : Type} (m : M F α) : Option α :=
  match m ⟨[], [], 0, []⟩ with
  | .ok v _ => some v
  | _ => none

/-- the value of an expression, if there is one -/
def value (O : Flt F) (σ : Stack F) : Exp → Option (Value F)
  | .num i => some (.int i)
  | .var x =>
    match look σ x with
    | some .unset => none
    | o => o
  | .un op a => do
    let v ← value O σ a
    pureVal (unop O op v)
  | .bin op a b => do
    let v ← value O σ a
    let w ← value O σ b
    pureVal (binop O op v w)

/-- what is run: a statement, a list of statements, the rest of a loop -/
inductive Job
  | stm (s : Stm)
  | seq (l : List Stm)
  | loop (c : Exp) (incr body : Stm)

/-- the meaning of the statements, as a relation between the stack before and after -/
inductive Run (O : Flt F) : Job → Stack F → Stack F → Prop
  | assignOld (x e σ v w) (hx : look σ x = some w) (he : value O σ e = some v) : Run O (.stm (.assign x e)) σ (put σ x v)
  | assignNew (x e σ v) (hx : look σ x = none) (he : value O σ e = some v) : Run O (.stm (.assign x e)) σ (declare σ x v)
  | step (op x σ v w) (hx : look σ x = some v) (hv : pureVal (popVal O op v) = some w) : Run O (.stm (.step op x)) σ (put σ x w)
  | block (l σ sc σ') (h : Run O (.seq l) ([] :: σ) (sc :: σ')) : Run O (.stm (.block l)) σ σ'
  | iteTrue (c a b σ v sc σ') (hc : value O ([] :: σ) c = some v) (hv : pureVal (toBool O v) = some true) (h : Run O (.stm a) ([] :: σ) (sc :: σ')) : Run O (.stm (.ite c a b)) σ σ'
  | iteFalse (c a b σ v sc σ') (hc : value O ([] :: σ) c = some v) (hv : pureVal (toBool O v) = some false) (h : Run O (.stm b) ([] :: σ) (sc :: σ')) : Run O (.stm (.ite c a b)) σ σ'
  | for_ (i c n b σ σ1 sc σ') (hi : Run O (.stm i) ([] :: σ) σ1) (h : Run O (.loop c n b) σ1 (sc :: σ')) : Run O (.stm (.for_ i c n b)) σ σ'
  | nil (σ) : Run O (.seq []) σ σ
  | cons (a l σ σ1 σ2) (h1 : Run O (.stm a) σ σ1) (h2 : Run O (.seq l) σ1 σ2) : Run O (.seq (a :: l)) σ σ2
  | loopEnd (c n b σ v) (hc : value O σ c = some v) (hv : pureVal (toBool O v) = some false) : Run O (.loop c n b) σ σ
  | loopMore (c n b σ v σ1 σ2 σ3) (hc : value O σ c = some v) (hv : pureVal (toBool O v) = some true) (h1 : Run O (.stm b) σ σ1) (h2 : Run O (.stm n) σ1 σ2) (h3 : Run O (.loop c n b) σ2 σ3) : Run O (.loop c n b) σ σ3

/-- the environments, each with its names and cells, from the inner to the outer one -/
abbrev Layout := List (Nat × List (String × Nat))

/-- the layout is that of the memory: each environment is inside the next, which was made before it -/
def Linked (s : St F) : Layout → Prop
  | [] => False
  | [a] => s.envs[a.1]? = some ⟨none, a.2⟩
  | a :: b :: l => s.envs[a.1]? = some ⟨some b.1, a.2⟩ ∧ b.1 < a.1 ∧ Linked s (b :: l)

/-- the names are those of the scope, and the cells hold the values -/
def ScopeOk (s : St F) (vars : List (String × Nat)) (sc : List (String × Value F)) : Prop := List.Forall₂ (fun (p : String × Nat) (q : String × Value F) => p.1 = q.1 ∧ s.cells[p.2]? = some q.2) vars sc

/-- the memory holds the stack: the scopes, from the current one outwards, have the given names and values, each variable being a different cell -/
structure Holds (s : St F) (lay : Layout) (σ : Stack F) : Prop where
  head : (lay.head?.map (·.1)) = some s.cur
  linked : Linked s lay
  vals : List.Forall₂ (fun a sc => ScopeOk s a.2 sc) lay σ
  nodup : (lay.flatMap fun a => a.2.map (·.2)).Nodup

end Nissa.Nice
