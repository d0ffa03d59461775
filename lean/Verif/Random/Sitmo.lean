/-
Model of the counter based random generator and of the field random streams: /repo/src/base/sitmo.hpp. Machine words are bit vectors.
-/
import Mathlib.Logic.Function.Basic
import Mathlib.Data.Rat.Defs
set_option linter.all false

namespace Nissa.Sitmo

abbrev W := BitVec 64
/-- Sitmo::Word, sitmo.hpp:83-84 -/
abbrev Word := Fin 4 → W
/-- Sitmo::Key, sitmo.hpp:79-80 -/
abbrev Key := Fin 5 → W

/-- `(x<<r)|(x>>(64-r))` -/
def rotl (x : W) (r : Nat) : W := (x <<< r) ||| (x >>> (64 - r))

/-- index modulo 4 -/
def ix4 (n : Nat) : Fin 4 := ⟨n % 4, Nat.mod_lt _ (by omega)⟩
def ix5 (n : Nat) : Fin 5 := ⟨n % 5, Nat.mod_lt _ (by omega)⟩

/-- body of the first loop, sitmo.hpp:93-107: `mk[j%2][i]` -/
def mkRot (j i : Nat) : Nat := if j % 2 = 0 then (if i = 0 then 14 else 16) else (if i = 0 then 25 else 33)

def mixKey (key : Key) (j i : Nat) (x : Word) : Word :=
  let a := ix4 (2 * i)
  let b := ix4 (2 * i + 1)
  let x1 := x b + (key (ix5 (2 * i + 1 + j)) + (if i = 1 then BitVec.ofNat 64 j else 0))
  let x0 := x a + (x1 + key (ix5 (2 * i + j)))
  Function.update (Function.update x a x0) b (rotl x1 (mkRot j i) ^^^ x0)

/-- rotations of the second loop, sitmo.hpp:112-114: `m[j%2][l][i]` -/
def mRot (j l i : Nat) : Nat :=
  if j % 2 = 0 then
    (if l = 0 then (if i = 0 then 52 else 57) else if l = 1 then (if i = 0 then 23 else 40) else (if i = 0 then 5 else 37))
  else
    (if l = 0 then (if i = 0 then 46 else 12) else if l = 1 then (if i = 0 then 58 else 22) else 32)

/-- body of the second loop, sitmo.hpp:109-124 -/
def mix (j l i : Nat) (x : Word) : Word :=
  let a := ix4 (2 * i)
  let b := ix4 (2 * i + (if l % 2 = 0 then 3 else 1))
  let x0 := x a + x b
  Function.update (Function.update x a x0) b (rotl (x b) (mRot j l i) ^^^ x0)

/-- body of the outer loop, sitmo.hpp:91-125 -/
def round (key : Key) (j : Nat) (x : Word) : Word :=
  let x := [0, 1].foldl (fun x i => mixKey key j i x) x
  [0, 1, 2].foldl (fun x l => [0, 1].foldl (fun x i => mix j l i x) x) x

/-- Sitmo::encrypt, sitmo.hpp:86-131 -/
def encrypt (key : Key) (x : Word) : Word :=
  let x := [0, 1, 2, 3, 4].foldl (fun x j => round key j x) x
  Function.update x 3 (x 3 + 5)

/-- buildKey, sitmo.hpp:133-147 -/
def buildKey (w : Word) : Key := fun i =>
  if h : i.val < 4 then w ⟨i.val, h⟩ else 0x1BD11BDAA9FC1A22#64 ^^^ w 0 ^^^ w 1 ^^^ w 2 ^^^ w 3

/-- carry of State::operator+, sitmo.hpp:172-177: `do out[iDigit]++; while(out[iDigit++]==0 and iDigit<4);` -/
def carry (x : Word) (d : Nat) : Word :=
  if h : d < 4 then
    let x := Function.update x ⟨d, h⟩ (x ⟨d, h⟩ + 1)
    if x ⟨d, h⟩ = 0 ∧ d + 1 < 4 then carry x (d + 1) else x
  else x
termination_by 4 - d

/-- State::operator+, sitmo.hpp:158-181 -/
def addState (s : Word) (z : W) : Word :=
  let out := Function.update s 0 (s 0 + z)
  if out 0 ≤ s 0 then carry out 1 else out

/-- Rng: the key and the state, which no function of the library advances, sitmo.hpp:150-273 -/
structure Rng where
  key : Key
  state : Word

/-- Rng::seed, sitmo.hpp:237-244 -/
def seed (s : BitVec 32) : Rng := ⟨buildKey (fun i => if i = 0 then s.setWidth 64 else 0), fun _ => 0⟩

/-- the whole word from which a number is taken, sitmo.hpp:259-262 -/
def block (r : Rng) (offset : W) : Word := encrypt r.key (addState r.state offset)

/-- Rng::generateNth, sitmo.hpp:246-265 (the union is read on a little endian machine) -/
def generateNth (r : Rng) (offset : W) : BitVec 32 := (block r offset 0).setWidth 32

/-- getUniformDistributed, sitmo.hpp:343-355, on the two numbers drawn one after the other (which of the two divisions comes first is not
specified by the language: the first call is taken to be the left one), with exact rationals in place of doubles -/
def uniform (a b : BitVec 32) : ℚ :=
  let F : ℚ := 4294967296
  let res := ((a.toNat : ℚ) / F + b.toNat) / F
  if res ≥ 1 then 999999999999999889 / 1000000000000000000 else res

/-- getRngViewOnGlbSiteIRndReal, sitmo.hpp:324-336: where the view begins. `glblx` is received as an `int`, and all is computed modulo 2^64 -/
def viewStart (offsetReal : W) (glbVol glblx : Nat) (ireal : Nat) : W :=
  2 * (offsetReal * BitVec.ofNat 64 glbVol + BitVec.ofInt 64 ((glblx : Int).bmod (2 ^ 32)) + BitVec.ofNat 64 glbVol * BitVec.ofNat 64 ireal)

/-- the number put in entry `ireal` of the site, sitmo.hpp:358-371, 397-416: the view is called twice -/
def siteReal (r : Rng) (offsetReal : W) (glbVol glblx ireal : Nat) : ℚ :=
  let v := viewStart offsetReal glbVol glblx ireal
  uniform (generateNth r v) (generateNth r (v + 1))

/-- FieldRngStream::getDrawer, sitmo.hpp:440-458, for types with `nreals` reals each: the offsets of the drawers got in sequence -/
def offsets : List Nat → W → List (W × Nat)
  | [], _ => []
  | n :: l, off => (off, n) :: offsets l (off + BitVec.ofNat 64 n)

/-- remapUniformToSign, sitmo.hpp:532-536 -/
def sign (x : ℚ) : Int := Int.tdiv (2 * x).num (2 * x).den * 2 - 1

end Nissa.Sitmo
