/-
Model of the per-site random generator: /repo/src/base/random.cpp:45-190 and rnd_gen of /repo/src/base/random.hpp:40-46.
32-bit `int` arithmetic is modelled exactly: each operation that would leave the range of `int` (undefined behaviour) gives `none`.
The double precision conversion of the drawn integer is modelled by exact rationals.
-/
import Verif.Geometry.Tables
import Mathlib.Data.Rat.Floor
import Mathlib.Algebra.Order.Floor.Ring
set_option linter.all false

namespace Nissa.Ran2
open Nissa.Lx (Coords Geo)

/-- result of an `int` operation: `none` when it overflows -/
def ck (z : Int) : Option Int := if -2 ^ 31 ≤ z ∧ z < 2 ^ 31 then some z else none

/-- the constants of random.cpp:47-48, 163-165 -/
def im1 : Int := 2147483563
def im2 : Int := 2147483399
def imm1 : Int := im1 - 1
def ia1 : Int := 40014
def ia2 : Int := 40692
def iq1 : Int := 53668
def iq2 : Int := 52774
def ir1 : Int := 12211
def ir2 : Int := 3791
def ndiv : Int := 1 + Int.tdiv imm1 32

/-- rnd_gen, random.hpp:40-46 -/
structure Gen where
  idum : Int
  idum2 : Int
  iv : Fin 32 → Int
  iy : Int

/-- `k=x/iq; x=ia*(x-k*iq)-k*ir; if(x<0) x+=im;` random.cpp:57-59, 169-175 -/
def update (im ia iq ir x : Int) : Option Int := do
  let k := Int.tdiv x iq
  let kq ← ck (k * iq)
  let r ← ck (x - kq)
  let a ← ck (ia * r)
  let b ← ck (k * ir)
  let x ← ck (a - b)
  if x < 0 then ck (x + im) else some x

/-- loop of random.cpp:55-61, with counter `n` = j+1 still to do -/
def startLoop : Nat → Int → (Fin 32 → Int) → Option (Int × (Fin 32 → Int))
  | 0, idum, iv => some (idum, iv)
  | j + 1, idum, iv => do
    let idum ← update im1 ia1 iq1 ir1 idum
    startLoop j idum (if h : j < 32 then Function.update iv ⟨j, h⟩ idum else iv)

/-- start_rnd_gen, random.cpp:45-63 (the table is initially whatever the memory contains) -/
def start (seed : Int) (mem : Fin 32 → Int := fun _ => 0) : Option Gen := do
  let s1 ← ck (seed + 1)
  let idum := max s1 1
  let (i, iv) ← startLoop 40 idum mem
  some ⟨i, idum, iv, iv 0⟩

/-- the integer part of rnd_get_unif, random.cpp:169-180; `none` also for an access outside of the table -/
def step (g : Gen) : Option Gen := do
  let idum ← update im1 ia1 iq1 ir1 g.idum
  let idum2 ← update im2 ia2 iq2 ir2 g.idum2
  let j := Int.tdiv g.iy ndiv
  if h : 0 ≤ j ∧ j < 32 then
    let jf : Fin 32 := ⟨j.toNat, by omega⟩
    let iy ← ck (g.iv jf - idum2)
    let iy ← if iy < 0 then ck (iy + imm1) else some iy
    some ⟨idum, idum2, Function.update g.iv jf idum, iy⟩
  else none

/-- `nissa_min(am*iy,rnmx)`, random.cpp:166,182 -/
def unit (g : Gen) : ℚ := min ((1 / (im1 : ℚ)) * g.iy) (1 - 12 / 100000000)

/-- rnd_get_unif, random.cpp:161-185 -/
def getUnif (g : Gen) (mn mx : ℚ) : Option (ℚ × Gen) := do
  let g ← step g
  some (unit g * (mx - mn) + mn, g)

/-- any number of draws -/
def steps : Nat → Gen → Option Gen
  | 0, g => some g
  | n + 1, g => do steps n (← step g)

/-- RAND_MAX of the GNU C library -/
def randMax : Int := 2147483647

/-- conversion of a double to int: towards zero -/
def truncZ (q : ℚ) : Int := if 0 ≤ q then ⌊q⌋ else ⌈q⌉

/-- internal seed of start_loc_rnd_gen, random.cpp:127-128, with the global generator left behind -/
def internalSeed (glbVol : Nat) (glb : Gen) : Option (Int × Gen) := do
  let (u, g) ← getUnif glb 0 (randMax - glbVol)
  some (truncZ u, g)

/-- generator of local site `ivol`, random.cpp:132-138 (`none` also for the CRASH on a negative seed); the seed is 64-bit but handed as
an `int` -/
def locGen (g : Geo) (rank : Coords) (iseed : Int) (ivol : Nat) : Option Gen := do
  let glblx ← Nissa.Lx.glblxOfLoclx g rank ivol
  let s : Int := iseed + glblx
  if s < 0 then none else start (Nissa.Lx.toInt32 s)

/-- start_loc_rnd_gen(int), random.cpp:118-141: the generators of all the local sites of a rank, and the global one -/
def startLoc (g : Geo) (rank : Coords) (seed : Int) : Option (Gen × (Nat → Option Gen)) := do
  let glb ← start seed
  let (iseed, glb) ← internalSeed g.glbVol glb
  some (glb, locGen g rank iseed)

/-- generate_random_coord, random.cpp:188-195 -/
def randomCoord (L : Coords) : List Nissa.Lx.Dir → Gen → Option (List Int × Gen)
  | [], g => some ([], g)
  | mu :: l, g => do
    let (u, g) ← getUnif g 0 (L mu)
    let (r, g) ← randomCoord L l g
    some (truncZ u :: r, g)

/-- rnd_get_pm_one, random.cpp:198-203 -/
def pmOne (g : Gen) : Option (Int × Gen) := do
  let (r, g) ← getUnif g 0 1
  some (if r > 1 / 2 then 1 else -1, g)

end Nissa.Ran2
