/-
Model of the symmetrizers of an already gathered vector.
Source: /repo/src/operations/vector_gather.cpp:70-141.
Simplifications: `double` is a field `K` (exact arithmetic); the gathered vector is a function from the offset (in doubles) to the value;
integers are naturals, so `glbSize[mu]-x[mu]` is meant for `x[mu]<=glbSize[mu]`, which the theorems guarantee.
`CRASH` is `none`.
-/
import Verif.Geometry.PropsLx
import Mathlib.Algebra.BigOperators.Fin
import Mathlib.GroupTheory.Perm.Basic
import Mathlib.Data.Fintype.Perm
import Mathlib.Algebra.Field.Basic

set_option linter.all false

namespace Nissa.Symm
open Nissa.Lx

variable {K : Type} [Field K]

/-- `buf[id]` after the first loop of `average_list_of_gathered_vector_sites`, vector_gather.cpp:73-80 -/
def avgBuf (vec : Nat → K) (sites : List Nat) (dps id : Nat) : K :=
  match sites with
  | [] => 0
  | s0 :: rest => (rest.foldl (fun b s => b + vec (dps * s + id)) (vec (dps * s0 + id))) / (sites.length : K)

/-- `memcpy(vec+dps*site,buf.data(),sizeof(double)*dps)`, vector_gather.cpp:84 -/
def copyTo (buf : Nat → K) (dps : Nat) (vec : Nat → K) (site : Nat) : Nat → K :=
  fun a => if dps * site ≤ a ∧ a < dps * site + dps then buf (a - dps * site) else vec a

/-- `average_list_of_gathered_vector_sites`, vector_gather.cpp:71-85 -/
def average (dps : Nat) (vec : Nat → K) (sites : List Nat) : Nat → K :=
  sites.foldl (copyTo (avgBuf vec sites dps) dps) vec

/-- `xmirr`, vector_gather.cpp:104-106 -/
def mirrCoord (s x : Coords) (imirr : Nat) : Coords :=
  fun mu => if imirr.testBit mu.val then (s mu - x mu) % s mu else x mu

/-- `ivol[8]`, vector_gather.cpp:101-108 -/
def mirrSites (s x : Coords) : List Nat := (List.range 8).map (fun imirr => lxOfCoord (mirrCoord s x imirr) s)

/-- the four nested loops of `gathered_vector_mirrorize`, vector_gather.cpp:95-98 -/
def mirrPoints (TH LH : Nat) : List Coords :=
  (List.range (TH + 1)).flatMap fun x0 => (List.range (LH + 1)).flatMap fun x1 =>
    (List.range (LH + 1)).flatMap fun x2 => (List.range (LH + 1)).map fun x3 => ![x0, x1, x2, x3]

/-- `gathered_vector_mirrorize`, vector_gather.cpp:88-114 -/
def mirrorize (s : Coords) (dps : Nat) (vec : Nat → K) : Option (Nat → K) :=
  if s 0 % 2 ≠ 0 ∨ s 1 % 2 ≠ 0 then none
  else some ((mirrPoints (s 0 / 2) (s 1 / 2)).foldl (fun v x => average dps v (mirrSites s x)) vec)

/-- `perm`, vector_gather.cpp:124 -/
def perms : List (Fin 4 × Fin 4 × Fin 4) := [(1, 2, 3), (2, 3, 1), (3, 1, 2), (1, 3, 2), (3, 2, 1), (2, 1, 3)]

/-- `ivol[6]`, vector_gather.cpp:133-135 -/
def cubicSites (s x : Coords) : List Nat := perms.map (fun p => lxOfCoord ![x 0, x p.1, x p.2.1, x p.2.2] s)

/-- the four nested loops of `gathered_vector_cubic_symmetrize`, vector_gather.cpp:127-130 -/
def cubicPoints (TH LH : Nat) : List Coords :=
  (List.range (TH + 1)).flatMap fun x0 => (List.range (LH + 1)).flatMap fun x1 =>
    (List.range (x1 + 1)).flatMap fun x2 => (List.range (x2 + 1)).map fun x3 => ![x0, x1, x2, x3]

/-- `gathered_vector_cubic_symmetrize`, vector_gather.cpp:117-141 -/
def cubicSymmetrize (s : Coords) (dps : Nat) (vec : Nat → K) : Option (Nat → K) :=
  if s 0 % 2 ≠ 0 ∨ s 1 % 2 ≠ 0 then none
  else some ((cubicPoints (s 0 / 2) (s 1 / 2)).foldl (fun v x => average dps v (cubicSites s x)) vec)

end Nissa.Symm
