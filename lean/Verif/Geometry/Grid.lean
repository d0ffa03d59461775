/-
Model of the choice of the grid of ranks: /repo/src/base/init.cpp:284-521 (bulk_volume, bulk_recip_lat_volume, compute_border_variance,
findMinimalSurfaceGrid). Ints are unbounded (so: volume below 2^31 and at most 15 factors in the code); the two compile-time constant
switches additionally_parallelize_dir=0 and check_all_dir_parallelized=0 (331-332, 347) are dropped.
-/
import Verif.Geometry.Model
import Verif.Routines.Integers
import Mathlib.Algebra.BigOperators.Fin
import Mathlib.Data.Fintype.Basic
set_option linter.all false

namespace Nissa.Grid
open Nissa.Lx (Coords Dir)

/-- bulk_volume, init.cpp:284-297 -/
def bulkVolume (X : Coords) : Nat :=
  if X 0 > 2 then if X 1 > 2 then if X 2 > 2 then if X 3 > 2 then (X 0 - 2) * (X 1 - 2) * (X 2 - 2) * (X 3 - 2) else 0 else 0 else 0 else 0

/-- bulk_recip_lat_volume, init.cpp:300-305 -/
def bulkRecipLatVolume (R L : Coords) : Nat := bulkVolume (fun mu => L mu / R mu)

/-- compute_border_variance, init.cpp:308-323 -/
def borderVariance (L P : Coords) (factorizeProcessor : Bool) : Int :=
  let B := fun ib : Dir => ((Nissa.Lx.dirs.filter (fun mu => mu ≠ ib)).map (fun mu => if factorizeProcessor then L mu / P mu else P mu)).prod
  let SB : Int := ((Nissa.Lx.dirs.map (fun ib => (B ib : Int))).sum) / 4
  let S2B : Int := ((Nissa.Lx.dirs.map (fun ib => (B ib : Int) * B ib)).sum) / 4
  S2B - SB * SB

/-- digit of icombo, init.cpp:441 -/
def digit (ic i : Nat) : Dir := ⟨ic / 4 ^ i % 4, Nat.mod_lt _ (by omega)⟩

/-- inner do-while, init.cpp:436-454: factors k-1..0 still to be assigned; returns the grid and the factor at which it failed -/
def assign (L : Coords) (fact : Nat → Nat) (ic : Nat) : Nat → Coords → Coords × Option Nat
  | 0, R => (R, none)
  | k + 1, R =>
    let mu := digit ic k
    let R' := Function.update R mu (R mu * fact k)
    if L mu % R' mu = 0 ∧ L mu ≥ R' mu then assign L fact ic k R' else (R', some k)

/-- what the search needs -/
structure Pars where
  L : Coords
  fix : Coords
  eo : Bool
  factorizeRank : Bool
  fact : Nat → Nat
  nFact : Nat
  LV : Nat

/-- conversion to the rank grid, init.cpp:460 -/
def toRanks (p : Pars) (R : Coords) : Coords := if p.factorizeRank then R else fun mu => p.L mu / R mu

/-- checks on a complete grid, init.cpp:457-467 -/
def checks (p : Pars) (R : Coords) : Prop :=
  ∀ mu, (p.eo = true → p.L mu / R mu % 2 = 0) ∧ (p.fix mu ≠ 0 → p.fix mu = R mu)

instance (p : Pars) (R : Coords) : Decidable (checks p R) := by unfold checks; infer_instance

/-- the partitioning of icombo and where it failed, init.cpp:426-467 (the `-1` of ifact is dropped: `ok` without failing factor) -/
def combo (p : Pars) (ic : Nat) : Coords × Option Nat := assign p.L p.fact ic p.nFact (fun _ => 1)

/-- valid_partitioning at the end, init.cpp:438-467 -/
def validCombo (p : Pars) (ic : Nat) : Prop := (combo p ic).2 = none ∧ checks p (toRanks p (combo p ic).1)

instance (p : Pars) (ic : Nat) : Decidable (validCombo p ic) := by unfold validCombo; infer_instance

/-- current best: min_surf_LV, mBV, mR, init.cpp:393,419-422 -/
structure Best where
  surf : Nat
  bv : Int
  R : Coords

/-- init.cpp:472-502; bulk never exceeds LV, as truncated subtraction assumes -/
def improve (p : Pars) (b : Option Best) (R : Coords) : Option Best :=
  let surf := p.LV - bulkRecipLatVolume R p.L
  let bv := borderVariance p.L R p.factorizeRank
  match b with
  | none => some ⟨surf, bv, R⟩
  | some b => if surf < b.surf then some ⟨surf, bv, R⟩
    else if surf = b.surf ∧ bv < b.bv then some ⟨surf, bv, R⟩ else some b

/-- how many combinations are skipped, init.cpp:504-513 -/
def skip (p : Pars) (ic : Nat) : Nat :=
  match (combo p ic).2 with
  | none => 1
  | some ifact => 4 ^ (ifact - 1)

/-- outer do-while, init.cpp:424-515 -/
def search (p : Pars) (ncombo ic : Nat) (b : Option Best) : Option Best :=
  if validCombo p ic then
    let b' := improve p b (toRanks p (combo p ic).1)
    if ic + 1 < ncombo then search p ncombo (ic + 1) b' else b'
  else
    if ic + skip p ic < ncombo then search p ncombo (ic + skip p ic) b else b
termination_by ncombo - ic
decreasing_by
  · omega
  · have : 0 < skip p ic := by unfold skip; split <;> [exact Nat.one_pos; exact Nat.pow_pos (by omega)]
    omega

/-- volume, init.cpp:339-340 -/
def vol (L : Coords) : Nat := L 0 * L 1 * L 2 * L 3

/-- res_NR after the loop of init.cpp:366-379 -/
def resNR (NR : Nat) (fix : Coords) : Nat :=
  Nissa.Lx.dirs.foldl (fun r mu => if fix mu ≠ 0 then r / fix mu else r) NR

/-- findMinimalSurfaceGrid, init.cpp:326-521. `none` = CRASH; `some none` = the grid of -1 returned when nothing is found (which makes
init_grid crash, init.cpp:613-614: `something_found` starts from 1, and its own check never triggers) -/
def findMinimalSurfaceGrid (L fix : Coords) (eo : Bool) (NR : Nat) : Option (Option Coords) :=
  let V := vol L
  let LV := V / NR
  if eo = true ∧ V / NR % 16 ≠ 0 then none
  else if V % NR ≠ 0 then none
  else if ∃ mu, fix mu ≠ 0 ∧ (L mu % fix mu ≠ 0 ∨ L mu < (if eo = true then 2 else 1)) then none
  else if resNR NR fix < 1 then none
  else if NR = 1 then some (some (fun _ => 1))
  else if NR = V then some (some L)
  else
    let fLV := Nissa.Ints.factorize LV
    let fNR := Nissa.Ints.factorize NR
    let factorizeRank := decide (fLV.length ≥ fNR.length)
    let list := if factorizeRank then fNR else fLV
    some ((search ⟨L, fix, eo, factorizeRank, fun i => list.getD i 0, list.length, LV⟩ (4 ^ list.length) 0 none).map Best.R)

/-! ### Specification -/

/-- The grids allowed: they divide the lattice in each direction, multiply up to the number of ranks, match the directions fixed by the
user, and if even/odd sites are to be used give local lattices of even sides -/
structure Admissible (L fix : Coords) (eo : Bool) (NR : Nat) (R : Coords) : Prop where
  dvd : ∀ mu, R mu ∣ L mu
  prod : R 0 * R 1 * R 2 * R 3 = NR
  fixed : ∀ mu, fix mu ≠ 0 → R mu = fix mu
  even : eo = true → ∀ mu, L mu / R mu % 2 = 0

/-- sites of the local lattice with at least one coordinate at the boundary of the local box: local volume minus the bulk -/
def surface (L R : Coords) : Nat :=
  (L 0 / R 0) * (L 1 / R 1) * (L 2 / R 2) * (L 3 / R 3) - (L 0 / R 0 - 2) * (L 1 / R 1 - 2) * (L 2 / R 2 - 2) * (L 3 / R 3 - 2)

end Nissa.Grid
