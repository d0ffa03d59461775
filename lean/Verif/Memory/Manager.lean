/-
Model of the memory manager: /repo/src/base/memory_manager.hpp:70-384, and of the value with extreme it uses,
/repo/src/new_types/value_with_extreme.hpp:11-97.
Pointers are natural numbers (0 = nullptr); sizes are natural numbers (64 bit overflow is not modelled).
The system allocator is a ghost component `sys`: the blocks obtained from it and not yet given back.
-/
import Mathlib.Data.List.Perm.Basic
import Mathlib.Algebra.BigOperators.Group.List.Basic
set_option linter.all false

namespace Nissa.Mem

/-- ValWithMax<Size>, value_with_extreme.hpp:14-28 -/
structure VMax where
  val : Int
  extr : Int

/-- operator+= and operator-= with updateExtreme, value_with_extreme.hpp:24-45,82-93 -/
def VMax.add (v : VMax) (d : Int) : VMax := let x := v.val + d; ⟨x, if x > v.extr then x else v.extr⟩

/-- MemoryManager, memory_manager.hpp:74-96. `used` is std::map<void*,Size>, `cached` is std::map<Size,vector<void*>>: association lists
with distinct keys. -/
structure State where
  used : List (Nat × Nat)
  cached : List (Nat × List Nat)
  usedSize : VMax
  cachedSize : VMax
  useCache : Bool
  nAlloc : Nat
  nCachedReused : Nat
  sys : List (Nat × Nat)

/-- memory_manager.hpp:76-96,313-317 -/
def init : State := ⟨[], [], ⟨0, 0⟩, ⟨0, 0⟩, true, 0, 0, []⟩

/-- used[ptr]=size -/
def mapSet (m : List (Nat × Nat)) (k v : Nat) : List (Nat × Nat) := (k, v) :: m.filter (fun e => e.1 != k)

/-- pushToUsed, memory_manager.hpp:99-107 -/
def pushToUsed (st : State) (ptr size : Nat) : State :=
  { st with used := mapSet st.used ptr size, usedSize := st.usedSize.add size }

/-- popFromUsed, memory_manager.hpp:112-133; none = CRASH -/
def popFromUsed (st : State) (ptr : Nat) : Option (State × Nat) :=
  match st.used.find? (fun e => e.1 == ptr) with
  | none => none
  | some e => some ({ st with used := st.used.eraseP (fun e => e.1 == ptr), usedSize := st.usedSize.add (-(e.2 : Int)) }, e.2)

/-- cached[size].push_back(ptr) -/
def cachePush (c : List (Nat × List Nat)) (size ptr : Nat) : List (Nat × List Nat) :=
  match c with
  | [] => [(size, [ptr])]
  | (s, l) :: r => if s = size then (s, l ++ [ptr]) :: r else (s, l) :: cachePush r size ptr

/-- pushToCache, memory_manager.hpp:136-144 -/
def pushToCache (st : State) (ptr size : Nat) : State :=
  { st with cached := cachePush st.cached size ptr, cachedSize := st.cachedSize.add size }

/-- the backward scan of popFromCache, memory_manager.hpp:171-184, on the reversed vector: first aligned element and what remains -/
def revPop (align : Nat) : List Nat → Option (Nat × List Nat)
  | [] => none
  | x :: xs => if x % align = 0 then some (x, xs) else (revPop align xs).map (fun p => (p.1, x :: p.2))

/-- lookup of the size and removal from its vector; the entry is erased if the vector gets empty, memory_manager.hpp:158-195 -/
def cachePop (c : List (Nat × List Nat)) (size align : Nat) : Option (Nat × List (Nat × List Nat)) :=
  match c with
  | [] => none
  | (s, l) :: r =>
    if s = size then
      match revPop align l.reverse with
      | none => none
      | some (p, rest) => some (p, if rest.reverse = [] then r else (s, rest.reverse) :: r)
    else (cachePop r size align).map (fun p => (p.1, (s, l) :: p.2))

/-- popFromCache, memory_manager.hpp:154-197; 0 = nullptr -/
def popFromCache (st : State) (size align : Nat) : State × Nat :=
  match cachePop st.cached size align with
  | none => (st, 0)
  | some (p, c) => ({ st with cached := c, cachedSize := st.cachedSize.add (-(size : Int)) }, p)

/-- allocateRaw, memory_manager.hpp:355-372; `sysPtr` is what the system returns -/
def allocateRaw (st : State) (size sysPtr : Nat) : State × Nat :=
  ({ st with nAlloc := st.nAlloc + 1, sys := (sysPtr, size) :: st.sys }, sysPtr)

/-- deAllocateRaw, memory_manager.hpp:375-379: free(nullptr) does nothing -/
def deAllocateRaw (st : State) (ptr : Nat) : State := { st with sys := st.sys.eraseP (fun e => e.1 == ptr) }

/-- provide, memory_manager.hpp:226-257, for nel elements of size sz -/
def provide (st : State) (sz nel align sysPtr : Nat) : State × Nat :=
  if nel = 0 then (st, 0)
  else
    let size := sz * nel
    let (st1, p) := popFromCache st size align
    let (st2, p2) := if p = 0 then allocateRaw st1 size sysPtr else ({ st1 with nCachedReused := st1.nCachedReused + 1 }, p)
    (pushToUsed st2 p2 size, p2)

/-- release, memory_manager.hpp:263-278; none = CRASH -/
def release (st : State) (ptr : Nat) : Option State :=
  if ptr = 0 then some st
  else if st.useCache then (popFromUsed st ptr).map (fun r => pushToCache r.1 ptr r.2)
  else (popFromUsed st ptr).map (fun r => deAllocateRaw r.1 ptr)

/-- releaseAllUsedMemory, memory_manager.hpp:281-300: by increasing address -/
def releaseAll (st : State) : Option State :=
  ((st.used.map Prod.fst).mergeSort).foldl (fun s p => s.bind (release · p)) (some st)

/-- inner loop of clearCache, memory_manager.hpp:321-330 -/
def clearSize (st : State) (size n : Nat) : State :=
  (List.range n).foldl (fun st _ => let r := popFromCache st size 16; deAllocateRaw r.1 r.2) st

/-- clearCache, memory_manager.hpp:303-331 (each entry acts on its own size: the order of the sizes is immaterial) -/
def clearCache (st : State) : State := st.cached.foldl (fun s e => clearSize s e.1 e.2.length) st

/-- Operations of the users of the manager -/
inductive Op
  /-- sz, nel, alignment, pointer that the system would return -/
  | provide (sz nel align sysPtr : Nat)
  | release (ptr : Nat)
  | releaseAll
  | clearCache
  | enableCache
  | disableCache

/-- one operation: new state and returned pointer; none = CRASH -/
def step (st : State) : Op → Option (State × Nat)
  | .provide sz nel align sysPtr => some (provide st sz nel align sysPtr)
  | .release p => (release st p).map (fun s => (s, 0))
  | .releaseAll => (releaseAll st).map (fun s => (s, 0))
  | .clearCache => some (clearCache st, 0)
  | .enableCache => some ({ st with useCache := true }, 0)
  | .disableCache => some (clearCache { st with useCache := false }, 0)

/-! ### Specification -/

/-- two non overlapping memory blocks (address, size) -/
def Disjoint (a b : Nat × Nat) : Prop := a.1 + a.2 ≤ b.1 ∨ b.1 + b.2 ≤ a.1

/-- What posix_memalign guarantees: non null, aligned, not overlapping anything not yet freed. Only asked when memory is actually needed
(sizeof is never 0). -/
def LegalOp (st : State) : Op → Prop
  | .provide sz nel align sysPtr =>
    0 < sz ∧ 0 < align ∧ sysPtr ≠ 0 ∧ sysPtr % align = 0 ∧ ∀ b ∈ st.sys, Disjoint (sysPtr, sz * nel) b
  | _ => True

/-- History of a program in which the system allocator behaves: the operations with the pointer they return, the states gone through, and
the final state -/
inductive LegalRun : List (Op × Nat) → List State → State → Prop
  | nil : LegalRun [] [init] init
  | snoc {tr sts st o st' p} : LegalRun tr sts st → LegalOp st o → step st o = some (st', p) → LegalRun (tr ++ [(o, p)]) (sts ++ [st']) st'

/-- how an operation which returned `p` changes the blocks the user holds -/
def liveStep (l : List (Nat × Nat)) (o : Op) (p : Nat) : List (Nat × Nat) :=
  match o with
  | .provide sz nel _ _ => if nel = 0 then l else (p, sz * nel) :: l
  | .release q => l.filter (fun b => b.1 != q)
  | .releaseAll => []
  | _ => l

/-- blocks the user holds according to the history alone: what was provided and not released since -/
def live (tr : List (Op × Nat)) : List (Nat × Nat) := tr.foldl (fun l e => liveStep l e.1 e.2) []

/-- total size of some blocks -/
def total (l : List (Nat × Nat)) : Int := (l.map (fun b => (b.2 : Int))).sum

/-- all the blocks kept in the cache -/
def cacheBlocks (c : List (Nat × List Nat)) : List (Nat × Nat) := c.flatMap (fun e => e.2.map (fun p => (p, e.1)))

end Nissa.Mem
