/-
Model of the tool choosing the rank grid for a machine whose nodes are a five dimensional torus, and writing the file that maps ranks to nodes.

  /repo/tools/find_best_vir_partitioning/find.cpp: 33-70 (torus_grid_t and the built-in blocks), 78-91 (rank_grid_t), 94-172 (assignement_t:
  set_from_way, fit_the_rank, is_torus, create_mapping), 175-194 (factorize), 196-298 (valid_partition_lister_t), 301-325 (find_torus_assignement),
  328-360 (find_torus), 362-378 (compute_border_border2_size), 454-573 (main after the input).

Simplifications: integers are natural numbers without bound (the program uses int: 4^nfact overflows with 16 factors or more); the printed report is
not modelled, only the two files written. The branches of BGQ hardware are not modelled.
-/
import Mathlib.Data.Fintype.Fin
import Mathlib.Data.List.FinRange
import Mathlib.Data.Fin.VecNotation
import Mathlib.Logic.Function.Basic
set_option linter.all false

namespace Nissa.Part

/-- direction of the torus / of the lattice -/
abbrev TDir := Fin 5
abbrev Dir := Fin 4
/-- coords5D_t and coords4D_t, find.cpp:72-73 -/
abbrev C5 := TDir → Nat
abbrev C4 := Dir → Nat

/-- torus_grid_t, find.cpp:33-69 -/
structure Torus where
  grid : C5
  isTorus : TDir → Bool

/-- constructor with four sizes, find.cpp:37-50 -/
def Torus.block (a b c d : Nat) : Torus where
  grid := ![a, b, c, d, 2]
  isTorus := ![decide (a > 2), decide (b > 2), decide (c > 2), decide (d > 2), true]

/-- get_N, find.cpp:51 -/
def Torus.N (t : Torus) : Nat := t.grid 0 * t.grid 1 * t.grid 2 * t.grid 3 * t.grid 4

/-- find_torus for a positive number of ranks, find.cpp:330-340 with the blocks of line 70; `none` is the CRASH -/
def findTorus (n : Nat) : Option Torus :=
  if n = 64 then some (.block 2 2 4 2) else
  if n = 128 then some (.block 2 2 4 4) else
  if n = 256 then some (.block 4 2 4 4) else
  if n = 512 then some (.block 4 4 4 4) else
  if n = 1024 then some (.block 8 4 4 4) else
  if n = 2048 then some (.block 8 8 4 4) else none

/-- get_N of the rank grid, find.cpp:90 -/
def rankN (R : C4) : Nat := R 0 * R 1 * R 2 * R 3

/-- assignement_t, find.cpp:94-99: for each lattice direction the list of torus directions assigned to it -/
abbrev Assign := Dir → List TDir

/-- loop of set_from_way, find.cpp:103-108 -/
def setLoop : List TDir → Nat → Assign → Assign
  | [], _, a => a
  | α :: r, w, a => setLoop r (w / 4) (fun m => if m.val = w % 4 then a m ++ [α] else a m)

/-- set_from_way, find.cpp:100-109 -/
def setFromWay (w : Nat) : Assign := setLoop [0, 1, 2, 3, 4] w (fun _ => [])

/-- fit_the_rank, find.cpp:110-127: successive integer divisions leave one -/
def fitTheRank (t : Torus) (R : C4) (a : Assign) : Bool :=
  [(0 : Dir), 1, 2, 3].foldl (fun out mu => out && ((a mu).foldl (fun x α => x / t.grid α) (R mu) == 1)) true

/-- the condition of is_torus on a lattice direction, find.cpp:131: not exactly one torus direction, or that one closed -/
def loneOk (t : Torus) : List TDir → Bool
  | [α] => t.isTorus α
  | _ => true

/-- is_torus, find.cpp:128-133 -/
def assignIsTorus (t : Torus) (a : Assign) : Bool :=
  [(0 : Dir), 1, 2, 3].foldl (fun out mu => out && loneOk t (a mu)) true

/-- the coordinate of the rank in a lattice direction, find.cpp:150-162: the torus directions in `l` are run as a snake -/
def rankCoord (g c : C5) : List TDir → Bool → Nat → Nat
  | [], _, acc => acc
  | α :: l, sign, acc =>
    rankCoord g c l (if c α % 2 = 1 then !sign else sign) (acc * g α + (if sign = false then g α - 1 - c α else c α))

/-- the rank of a node, find.cpp:146-164 -/
def rankId (t : Torus) (R : C4) (a : Assign) (c : C5) : Nat :=
  [(0 : Dir), 1, 2, 3].foldl (fun id mu => id * R mu + rankCoord t.grid c (a mu) false 0) 0

/-- the nodes in the order of the five loops, find.cpp:139-143 -/
def nodes (g : C5) : List C5 :=
  (List.range (g 0)).flatMap fun a => (List.range (g 1)).flatMap fun b => (List.range (g 2)).flatMap fun c =>
    (List.range (g 3)).flatMap fun d => (List.range (g 4)).map fun e => ![a, b, c, d, e]

/-- mapping_t, find.cpp:75 -/
abbrev Mapping := Nat → Option C5

/-- create_mapping, find.cpp:134-171 -/
def createMapping (t : Torus) (R : C4) (a : Assign) : Mapping :=
  (nodes t.grid).foldl (fun m c => fun r => if r = rankId t R a c then some c else m r) (fun _ => none)

/-- `mapping[irank]`, find.cpp:550: an entry not present is created with zeros -/
def Mapping.read (m : Mapping) (r : Nat) : C5 := (m r).getD (fun _ => 0)

/-- factorize, find.cpp:175-194: `fuel` bounds the steps of the loop, `fatt` is the candidate factor -/
def factLoop : Nat → Nat → Nat → List Nat → List Nat
  | 0, _, _, l => l
  | fuel + 1, n, fatt, l =>
    if n > 1 then
      let div := n / fatt
      let res := n - div * fatt
      if res ≠ 0 then factLoop fuel n (fatt + 1) l else factLoop fuel div fatt (l ++ [fatt])
    else l

/-- factorize, find.cpp:175-194; the loop takes less than 2n steps -/
def factorize (n : Nat) : List Nat := factLoop (2 * n) n 2 []

/-- valid_partition_lister_t, find.cpp:196-205, the part that does not change; `facts` is list_fact and its length nfact -/
structure Lister where
  L : C4
  facts : List Nat
  factorizeRank : Bool

/-- ncombo, find.cpp:234-235 -/
def Lister.ncombo (P : Lister) : Nat := 4 ^ P.facts.length

/-- constructor, find.cpp:207-237; `none` is a CRASH -/
def mkLister (L : C4) (NR : Nat) : Option Lister :=
  let V := L 0 * L 1 * L 2 * L 3
  let LV := V / NR
  if V % NR ≠ 0 then none else
  if (V / NR) % 32 ≠ 0 then none else
  let lLV := factorize LV
  let lNR := factorize NR
  some { L := L, factorizeRank := decide (lLV.length ≥ lNR.length), facts := if lLV.length ≥ lNR.length then lNR else lLV }

/-- inner loop of find_next_valid_partitioning, find.cpp:247-261: `k` is ifact+1. Returns the grid, ifact+1 at the exit and the validity -/
def inner (P : Lister) (icombo : Nat) : Nat → C4 → C4 × Nat × Bool
  | 0, R => (R, 0, true)
  | k + 1, R =>
    let mu : Dir := ⟨icombo / 4 ^ k % 4, Nat.mod_lt _ (by decide)⟩
    let R' := Function.update R mu (R mu * P.facts.getD k 0)
    if P.L mu % R' mu = 0 ∧ P.L mu ≥ R' mu then inner P icombo k R' else (R', k + 1, false)

/-- conversion to a rank grid and checks on the local sizes, find.cpp:268-281 -/
def finish (P : Lister) (R : C4) : C4 × Bool :=
  let R' : C4 := if P.factorizeRank then R else fun mu => P.L mu / R mu
  let even := [(0 : Dir), 1, 2, 3].foldl (fun v mu => v && decide ((P.L mu / R' mu) % 2 = 0)) true
  let four := [(0 : Dir), 1, 2, 3].foldl (fun v mu => v || decide ((P.L mu / R' mu) % 4 = 0)) false
  (R', even && four)

/-- the partition of a combination, find.cpp:244-281: grid, ifact+1, validity -/
def combo (P : Lister) (icombo : Nat) : C4 × Nat × Bool :=
  match inner P icombo P.facts.length (fun _ => 1) with
  | (R, k, true) => let q := finish P R; (q.1, k, q.2)
  | (R, k, false) => (R, k, false)

/-- advance after an invalid combination, find.cpp:284, with k = ifact+1 -/
def skip (k : Nat) : Nat := if k > 2 then 4 ^ (k - 2) else 1

theorem skip_pos (k : Nat) : 0 < skip k := by
  unfold skip; split
  · exact Nat.pow_pos (by decide)
  · decide

/-- the next combination, find.cpp:284 and 291 -/
def advance (P : Lister) (icombo : Nat) : Nat :=
  if (combo P icombo).2.2 = true then icombo + 1 else icombo + skip (combo P icombo).2.1

theorem lt_advance (P : Lister) (icombo : Nat) : icombo < advance P icombo := by
  unfold advance; split
  · omega
  · have := skip_pos (combo P icombo).2.1; omega

/-- find_next_valid_partitioning, find.cpp:238-297: from the current combination and the old partitionings; returns the new combination and,
if any, the grid found -/
def findNext (P : Lister) (icombo : Nat) (old : List C4) : Nat × Option C4 :=
  if (combo P icombo).2.2 = true ∧ (combo P icombo).1 ∉ old then (icombo, some (combo P icombo).1) else
    if advance P icombo < P.ncombo then findNext P (advance P icombo) old else (advance P icombo, none)
termination_by P.ncombo - icombo
decreasing_by
  have := lt_advance P icombo
  omega

/-- find_torus_assignement, find.cpp:301-325: the ways are scanned from `iway`; returns the last assignement tried and the value of iway at the end -/
def findAssign (t : Torus) (R : C4) (iway : Nat) : Assign × Nat :=
  let out := setFromWay iway
  if (!fitTheRank t R out || !assignIsTorus t out) = true ∧ iway + 1 < 1024 then findAssign t R (iway + 1) else (out, iway + 1)
termination_by 1024 - iway

/-- compute_border_border2_size, find.cpp:362-378 -/
def borders (L : C4) (R : C4) : Nat × Nat :=
  [(0 : Dir), 1, 2, 3].foldl (fun s mu =>
    let b := [(0 : Dir), 1, 2, 3].foldl (fun b nu => if mu ≠ nu then b * (L nu / R nu) else b) 1
    (s.1 + b, s.2 + b * b)) (0, 0)

/-- the champion: border, squared border, grid, assignement (find.cpp:460-464) -/
structure Champ where
  bord : Nat
  bord2 : Nat
  rank : C4
  assign : Assign

/-- comparison with the champion, find.cpp:490-504; `none` is bord=-1 -/
def challenge (L : C4) (best : Option Champ) (R : C4) (a : Assign) : Option Champ :=
  let n := borders L R
  let new : Champ := ⟨n.1, n.2, R, a⟩
  match best with
  | none => some new
  | some b =>
    if n.1 < b.bord ∨ (n.1 = b.bord ∧ (n.2 < b.bord2 ∨ (n.2 = b.bord2 ∧ L 0 / R 0 > L 0 / b.rank 0))) then some new else some b

/-- what is done with a listed partition, find.cpp:475-505 -/
def consider (t : Torus) (L : C4) (best : Option Champ) (R : C4) : Option Champ :=
  let a := findAssign t R 0
  if a.2 ≠ 1024 then challenge L best R a.1 else best

/-- loop of main, find.cpp:465-510; returns the champion and the list of the partitions, the last found first; `none` if the fuel is not enough -/
def mainLoop (t : Torus) (P : Lister) : Nat → Nat → List C4 → Option Champ → Option (List C4 × Option Champ)
  | 0, _, _, _ => none
  | fuel + 1, icombo, old, best =>
    match findNext P icombo old with
    | (i, some R) => mainLoop t P fuel i (R :: old) (consider t P.L best R)
    | (_, none) => some (old, best)

/-- the choice of the virtually parallel direction, find.cpp:555-557; `none` is -1 -/
def vdir (LL : C4) : Option Dir :=
  [(0 : Dir), 1, 2, 3].foldl (fun v mu => if (decide (LL mu % 4 = 0) && (match v with
    | none => true
    | some w => decide (LL mu > LL w))) = true then some mu else v) none

/-- what the program leaves -/
inductive Outcome
  /-- one of the CRASHes -/
  | crash
  /-- the factors are empty: the first of them is read out of the list, find.cpp:252-255 -/
  | outOfBounds
  /-- no champion: division by the zero grid of the default constructor, find.cpp:517 -/
  | divByZero
  /-- the loop did not end with the fuel given -/
  | noFuel
  /-- the two files: the node of each rank; grid and virtually parallel direction -/
  | files (map : Nat → C5) (rank : C4) (v : Option Dir)

/-- main, find.cpp:454-573 -/
def run (fuel : Nat) (t : Torus) (L : C4) : Outcome :=
  match mkLister L t.N with
  | none => .crash
  | some P =>
    if P.facts = [] then .outOfBounds else
    match mainLoop t P fuel 0 [] none with
    | none => .noFuel
    | some (_, none) => .divByZero
    | some (_, some b) => .files (fun r => (createMapping t b.rank b.assign).read r) b.rank (vdir (fun mu => L mu / b.rank mu))

end Nissa.Part
