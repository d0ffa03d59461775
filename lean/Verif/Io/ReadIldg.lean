/-
Model of the program that lists or extracts the records of an ILDG file: /repo/tools/read_ildg/read_ildg.cpp.
One rank (the others have no file to write to, and CRASH). Paths are not normalised, and no file written is the one being read.
-/
import Verif.Io.Ildg
import Mathlib.Data.Nat.Digits.Defs
set_option linter.all false

namespace Nissa.ReadIldg
open Nissa.Endian (Byte Mem Endianness)
open Nissa.Ildg

/-- what `%d` and `%lu` write -/
def dec (n : Nat) : List Byte :=
  if n = 0 then [48#8] else (Nat.digits 10 n).reverse.map (fun d => BitVec.ofNat 8 (48 + d))

/-- characters of a literal -/
def str (s : String) : List Byte := s.toList.map (fun c => BitVec.ofNat 8 c.toNat)

/-- `combine("%s_rec_%d_%s",file_pattern,irec,head.type)`: at most 1023 characters.
(tools/read_ildg/read_ildg.cpp:45, src/routines/ios.cpp:228-238) -/
def outName (pat : List Byte) (irec : Nat) (type : List Byte) : List Byte :=
  (pat ++ str "_rec_" ++ dec irec ++ str "_" ++ type).take 1023

/-- what is observed: the text printed and the files -/
structure Sys where
  text : List Byte
  files : List Byte → Option (List Byte)

/-- `open_file`, `fwrite`, `close_file`: `canOpen` tells which paths can be opened for writing.
(tools/read_ildg/read_ildg.cpp:45-47, src/routines/ios.cpp:148-177) -/
def put (canOpen : List Byte → Bool) (s : Sys) (f data : List Byte) : Option Sys :=
  if canOpen f then some ⟨s.text, fun g => if g = f then some data else s.files g⟩ else none

/-- the loop on the records (tools/read_ildg/read_ildg.cpp:22-60). Printing with `%s` an array without zeros is `none`, as CRASH is. The fuel
bounds the iterations, each of which takes a header, see `dump`. -/
def loop (native : Endianness) (junk : Mem) (ign : Bool) (canOpen : List Byte → Bool) (maxLength : Nat) (pat : Option (List Byte)) :
    Nat → Nat → Stream → Sys → Option Sys
  | 0, _, _, _ => none
  | fuel + 1, irec, f, s =>
    if reachedEOF f then some s
    else (getNextHeader native junk ign f).bind fun r =>
      (cstr r.1.type).bind fun name =>
        let s : Sys := ⟨s.text ++ str "Found record: " ++ name ++ str ", length: " ++ dec r.1.length ++ str "\n", s.files⟩
        if r.1.length < maxLength then
          (readAll r.2 r.1.length).bind fun d =>
            (match pat with
              | none => some (⟨s.text ++ d.1.takeWhile (· ≠ 0#8) ++ str "\n\n", s.files⟩ : Sys)
              | some p => put canOpen s (outName p irec name) d.1).bind fun s =>
            loop native junk ign canOpen maxLength pat fuel (irec + 1) d.2 s
        else
          loop native junk ign canOpen maxLength pat fuel (irec + 1) (skipRecord r.2 r.1)
            ⟨s.text ++ str "skipping the record\n", s.files⟩

/-- `main` on a file, with the length over which records are skipped (tools/read_ildg/read_ildg.cpp:8-66) -/
def dump (native : Endianness) (junk : Mem) (ign : Bool) (canOpen : List Byte → Bool) (maxLength : Nat) (pat : Option (List Byte))
    (files : List Byte → Option (List Byte)) (bytes : List Byte) : Option Sys :=
  loop native junk ign canOpen maxLength pat (bytes.length + 1) 0 ⟨bytes, 0⟩ ⟨[], files⟩

/-- largest length when not given (tools/read_ildg/read_ildg.cpp:5) -/
def defaultMax : Nat := 16 * 1024
end Nissa.ReadIldg
