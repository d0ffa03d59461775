/-
Model of the ILDG checksum: /repo/src/io/checksum.hpp:19-87.
32-bit words are `BitVec 32`. The shift by 32 bits, undefined in C++ and reached when the rotation amount is zero, is a parameter.
-/
import Verif.Io.Endian
import Verif.Field.Reduce
import Verif.Geometry.SumSites
set_option linter.all false

namespace Nissa.Checksum
open Nissa.Endian (Mem Byte Endianness mask)
open Nissa.Lx (Coords Geo)

/-- the polynomial, checksum.hpp:22 -/
def poly : BitVec 32 := 0xedb88320#32

/-- body of the loop of crcValue, checksum.hpp:25 -/
def crcStep (c : BitVec 32) : BitVec 32 := if c &&& 1#32 ≠ 0#32 then poly ^^^ (c >>> 1) else c >>> 1

/-- `crcValue`, checksum.hpp:19-28 -/
def crcValue (c : BitVec 32) : BitVec 32 := (List.range 8).foldl (fun c _ => crcStep c) c

/-- update of the crc with one byte, checksum.hpp:75: `(int)crc^mask[i]` where the `char` is (here) signed and promoted to int -/
def crcByte (crc : BitVec 32) (b : Byte) : BitVec 32 := crcValue ((crc ^^^ b.signExtend 32) &&& 0xff#32) ^^^ (crc >>> 8)

/-- crc of the data of a site, checksum.hpp:63-77; `fld iDeg` is the memory of one real of `sizeofT` bytes -/
def siteCrc (native : Endianness) (sizeofT nDegs : Nat) (fld : Nat → Mem) : BitVec 32 :=
  ((List.range nDegs).foldl (fun crc iDeg =>
    (List.range sizeofT).foldl (fun crc i => crcByte crc (mask .big native sizeofT (fld iDeg) i)) crc) 0xffffffff#32) ^^^ 0xffffffff#32

/-- `ildg_ivol`, checksum.hpp:56-58: `uint32_t` arithmetic -/
def ildgIvol (L : Coords) (X : Coords) : Nat :=
  [3, 2, 1].foldl (fun (v : Nat) (mu : Fin 4) => (v * L mu + X mu) % 2 ^ 32) (X 0 % 2 ^ 32)

/-- `x>>n` on a 32-bit word: undefined when n is 32 (here the result is the parameter `ub`) -/
def shr (ub : BitVec 32 → BitVec 32) (x : BitVec 32) (n : Nat) : BitVec 32 := if n < 32 then x >>> n else ub x

/-- rotation of checksum.hpp:81 -/
def rot (ub : BitVec 32 → BitVec 32) (crc : BitVec 32) (r : Nat) : BitVec 32 := crc <<< r ||| shr ub crc (32 - r)

/-- the two moduli, checksum.hpp:60-61 -/
def modulus : Fin 2 → Nat := ![29, 31]

/-- component `k` of the value stored in the buffer, checksum.hpp:51-82 -/
def buff (ub : BitVec 32 → BitVec 32) (native : Endianness) (sizeofT nDegs : Nat) (L X : Coords) (fld : Nat → Mem) (k : Fin 2) : BitVec 32 :=
  rot ub (siteCrc native sizeofT nDegs fld) (ildgIvol L X % modulus k)

/-- `ildgChecksum`, checksum.hpp:43-87: `X rk ivol` are the coordinates, `fld rk ivol` the data of a local site. The local reduction is
the one of Verif/Field/Reduce.lean, with any schedule; MPI_BXOR is taken to give the exclusive or of the contributions of the ranks. -/
def ildgChecksum (ub : BitVec 32 → BitVec 32) (native : Endianness) (sizeofT nDegs : Nat) (sched : Nat → Nat → List Nat) (g : Geo)
    (X : Nat → Nat → Coords) (fld : Nat → Nat → Nat → Mem) (k : Fin 2) : BitVec 32 :=
  (List.range g.nranks).foldl (fun acc rk => acc ^^^
    Nissa.Reduce.reduceNoPreserve (fun res acc => res ^^^ acc) (sched rk) g.locVol
      (fun ivol => buff ub native sizeofT nDegs g.L (X rk ivol) (fld rk ivol) k)) 0#32

end Nissa.Checksum
