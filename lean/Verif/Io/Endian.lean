/-
Endianness: /repo/src/io/endianness.hpp:14-96. C20.
A C++ object of size `n` is its memory, a function giving the byte at each offset; what a byte sequence means as a number is defined apart,
for each of the two conventions.
-/
import Mathlib.Logic.Function.Basic
import Mathlib.Tactic.Ring
set_option linter.all false

namespace Nissa.Endian

abbrev Byte := BitVec 8

/-- memory of an object: the byte at each offset (only the first `sizeof` are meaningful) -/
abbrev Mem := Nat → Byte

/-- `Endianness`, endianness.hpp:14 -/
inductive Endianness | little | big
deriving DecidableEq

/-- `byteSwap`, endianness.hpp:49-68: the output union starts undefined (`junk`) and the loop fills it -/
def byteSwap (sizeofT : Nat) (junk : Mem) (t : Mem) : Mem :=
  (List.range sizeofT).foldl (fun out i => Function.update out i (t (sizeofT - 1 - i))) junk

/-- `fixEndianness<Dest,Source>`, endianness.hpp:71-79 -/
def fixEndianness (dest source : Endianness) (sizeofT : Nat) (junk : Mem) (t : Mem) : Mem :=
  if dest ≠ source then byteSwap sizeofT junk t else t

/-- `fixToNativeEndianness`, endianness.hpp:82-88 -/
def fixToNative (native source : Endianness) (sizeofT : Nat) (junk t : Mem) : Mem := fixEndianness native source sizeofT junk t

/-- `fixFromNativeEndianness`, endianness.hpp:91-97 -/
def fixFromNative (native dest : Endianness) (sizeofT : Nat) (junk t : Mem) : Mem := fixEndianness dest native sizeofT junk t

/-- `EndiannessMask::operator[]`, endianness.hpp:36-45 -/
def mask (view stored : Endianness) (sizeofT : Nat) (t : Mem) (i : Nat) : Byte :=
  if view ≠ stored then t (sizeofT - 1 - i) else t i

/-! Specification: the number written in a memory of `n` bytes, and the way to write it -/

/-- number read from `n` bytes with the given convention -/
def valueOf (e : Endianness) (n : Nat) (m : Mem) : Nat :=
  (List.range n).foldr (fun i acc => (m (match e with | .little => i | .big => n - 1 - i)).toNat + 256 * acc) 0

/-- bytes of a number with the given convention -/
def bytesOf (e : Endianness) (n : Nat) (v : Nat) : Mem := fun i =>
  BitVec.ofNat 8 (v / 256 ^ (match e with | .little => i | .big => n - 1 - i))

theorem foldl_set (f : Nat → Byte) (junk : Mem) (n i : Nat) :
    (List.range n).foldl (fun out i => Function.update out i (f i)) junk i = if i < n then f i else junk i := by
  induction n with
  | zero => rfl
  | succ n ih =>
    rw [List.range_succ, List.foldl_append, List.foldl_cons, List.foldl_nil]
    by_cases h : i = n
    · subst h; rw [Function.update_self, if_pos (by omega)]
    · rw [Function.update_of_ne h, ih]
      by_cases h2 : i < n
      · rw [if_pos h2, if_pos (by omega)]
      · rw [if_neg h2, if_neg (by omega)]

/-- C20: byte `i` of the swapped object is byte `size-1-i` of the original, whatever the memory contained before -/
theorem C20_byteSwap (n : Nat) (junk t : Mem) (i : Nat) (hi : i < n) : byteSwap n junk t i = t (n - 1 - i) := by
  rw [byteSwap, foldl_set (fun i => t (n - 1 - i)), if_pos hi]

/-- C20: swapping twice gives back the object -/
theorem C20_involution (n : Nat) (junk junk' t : Mem) (i : Nat) (hi : i < n) : byteSwap n junk (byteSwap n junk' t) i = t i := by
  rw [C20_byteSwap _ _ _ _ hi, C20_byteSwap _ _ _ _ (by omega)]
  congr 1; omega

/-- C20: converting to a given endianness and back gives back the object, for both native endiannesses -/
theorem C20_roundtrip (native file : Endianness) (n : Nat) (junk junk' t : Mem) (i : Nat) (hi : i < n) :
    fixToNative native file n junk (fixFromNative native file n junk' t) i = t i := by
  unfold fixToNative fixFromNative fixEndianness
  by_cases h : native = file
  · rw [if_neg (not_not.2 h), if_neg (not_not.2 h.symm)]
  · rw [if_pos h, if_pos (Ne.symm h), C20_involution _ _ _ _ _ hi]

theorem foldr_congr {α : Type} (n : Nat) (f g : Nat → Nat) (h : ∀ i, i < n → f i = g i) :
    (List.range n).foldr (fun i acc => f i + 256 * acc) 0 = (List.range n).foldr (fun i acc => g i + 256 * acc) 0 := by
  have : ∀ l : List Nat, (∀ i ∈ l, f i = g i) → l.foldr (fun i acc => f i + 256 * acc) 0 = l.foldr (fun i acc => g i + 256 * acc) 0 := by
    intro l
    induction l with
    | nil => intro _; rfl
    | cons a l ih => intro hl; rw [List.foldr_cons, List.foldr_cons, ih (fun i hi => hl i (by simp [hi])), hl a (by simp)]
  exact this _ (fun i hi => h i (List.mem_range.1 hi))

/-- C20: a number stored in a file with a given endianness, once converted with `fixToNativeEndianness`, is that same number on the
machine, for each machine and file endianness -/
theorem C20_value (native file : Endianness) (n : Nat) (junk t : Mem) :
    valueOf native n (fixToNative native file n junk t) = valueOf file n t := by
  unfold fixToNative fixEndianness
  by_cases h : native = file
  · rw [if_neg (not_not.2 h), h]
  · rw [if_pos h]
    unfold valueOf
    cases native <;> cases file
    · exact absurd rfl h
    · refine foldr_congr (α := Unit) n _ _ (fun i hi => ?_)
      rw [C20_byteSwap _ _ _ _ hi]
    · refine foldr_congr (α := Unit) n _ _ (fun i hi => ?_)
      simp only
      rw [C20_byteSwap _ _ _ _ (by omega)]
      congr 2; omega
    · exact absurd rfl h

/-- C20: the mask shows, at each position, the byte the value would have in memory if stored with the viewed endianness; nothing is
converted -/
theorem C20_mask (view native : Endianness) (n : Nat) (junk t : Mem) (i : Nat) (hi : i < n) :
    mask view native n t i = fixFromNative native view n junk t i := by
  unfold mask fixFromNative fixEndianness
  by_cases h : view = native
  · rw [if_neg (not_not.2 h), if_neg (not_not.2 h)]
  · rw [if_pos h, if_pos h, C20_byteSwap _ _ _ _ hi]

theorem digits (n v : Nat) : (List.range n).foldr (fun i acc => (BitVec.ofNat 8 (v / 256 ^ i)).toNat + 256 * acc) 0 = v % 256 ^ n := by
  have gen : ∀ n v k, (List.range' k n).foldr (fun i acc => (BitVec.ofNat 8 (v / 256 ^ i)).toNat + 256 * acc) 0 = v / 256 ^ k % 256 ^ n := by
    intro n
    induction n with
    | zero => intro v k; simp [Nat.mod_one]
    | succ n ih =>
      intro v k
      rw [List.range'_succ, List.foldr_cons, ih, BitVec.toNat_ofNat, pow_succ 256 k, ← Nat.div_div_eq_div_mul, Nat.pow_succ' (n := n), Nat.mod_mul]
  have := gen n v 0
  rw [← List.range_eq_range'] at this
  simpa using this

/-- C20: writing a number of `n` bytes with an endianness and reading it back with the same one gives the number (so the two functions of
the specification are right): with `C20_value`, a number written by a machine is read by the other -/
theorem C20_bytesOf (e : Endianness) (n v : Nat) (hv : v < 256 ^ n) : valueOf e n (bytesOf e n v) = v := by
  unfold valueOf bytesOf
  have := digits n v
  rw [Nat.mod_eq_of_lt hv] at this
  cases e
  · exact this
  · conv_rhs => rw [← this]
    refine foldr_congr (α := Unit) n _ _ (fun i hi => ?_)
    simp only
    rw [show n - 1 - (n - 1 - i) = i by omega]

/-- C20: a big-endian number written by a machine and read by another one of possibly different endianness -/
theorem C20_between_machines (m1 m2 file : Endianness) (n v : Nat) (hv : v < 256 ^ n) (junk junk' : Mem) :
    valueOf m2 n (fixToNative m2 file n junk (fixFromNative m1 file n junk' (bytesOf m1 n v))) = v := by
  rw [C20_value]
  have := C20_value file m1 n junk' (bytesOf m1 n v)
  unfold fixToNative at this
  unfold fixFromNative
  rw [this, C20_bytesOf _ _ _ hv]

example : (List.range 4).map (bytesOf .big 4 0x456789ab) = [0x45#8, 0x67#8, 0x89#8, 0xab#8] ∧
    (List.range 4).map (bytesOf .little 4 0x456789ab) = [0xab#8, 0x89#8, 0x67#8, 0x45#8] := by decide

end Nissa.Endian
