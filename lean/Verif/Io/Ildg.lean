/-
Model of the record layer of the ILDG files: /repo/src/io/ILDG_File.hpp:26-61, /repo/src/io/ILDG_File.cpp.
A file is the list of its bytes; each rank has its own `FILE*`, hence its own position. `none` is a CRASH.
Offsets are natural numbers (in C++ off64_t and uint64_t, exact below 2^63).
-/
import Verif.Io.Endian
import Verif.Io.Text
set_option linter.all false

namespace Nissa.Ildg
open Nissa.Endian (Byte Mem Endianness bytesOf valueOf fixToNative fixFromNative)

/-! ### File positions -/

/-- a file opened for reading by a rank -/
structure Stream where
  bytes : List Byte
  pos : Nat

/-- diff_with_next_eight_multiple, /repo/src/routines/mpi_routines.cpp:34-40 -/
def diff8 (pos : Nat) : Nat := if pos % 8 ≠ 0 then 8 - pos % 8 else pos % 8

/-- ceil_to_next_eight_multiple, mpi_routines.cpp:190-191 -/
def ceil8 (pos : Nat) : Nat := pos + diff8 pos

/-- ILDG_File_skip_nbytes, ILDG_File.cpp:134-139 -/
def skipBytes (s : Stream) (n : Nat) : Stream := ⟨s.bytes, s.pos + n⟩

/-- ILDG_File_seek_to_next_eight_multiple, ILDG_File.cpp:171-176 -/
def seek8 (s : Stream) : Stream := skipBytes s (diff8 s.pos)

/-- ILDG_File_reached_EOF, ILDG_File.cpp:179-185 (the size is the length of the file) -/
def reachedEOF (s : Stream) : Bool := decide (s.bytes.length ≤ s.pos)

/-- ILDG_File_read_all, ILDG_File.cpp:190-204: crashes when less bytes than those required are available -/
def readAll (s : Stream) (n : Nat) : Option (List Byte × Stream) :=
  let s := seek8 s
  let data := (s.bytes.drop s.pos).take n
  if data.length ≠ n then none else some (data, seek8 (skipBytes s n))

/-! ### Headers -/

/-- ILDG_header, ILDG_File.hpp:45-52; the type is the array of 128 char -/
structure Header where
  magic : Nat
  version : Nat
  mbme : Nat
  length : Nat
  type : List Byte
deriving DecidableEq

/-- ILDG_MAGIC_NO, ILDG_File.hpp:26 -/
def magicNo : Nat := 0x456789ab

/-- get_MB_flag, ILDG_File.cpp:28-31 -/
def getMB (h : Header) : Bool := decide (h.mbme &&& 0x80 ≠ 0)
/-- get_ME_flag, ILDG_File.cpp:33-36 -/
def getME (h : Header) : Bool := decide (h.mbme &&& 0x40 ≠ 0)

/-- the `n` bytes of an object in memory -/
def image (n : Nat) (m : Mem) : List Byte := (List.range n).map m

/-- ILDG_File_build_record_header, ILDG_File.cpp:260-272: strncpy of at most 127 characters on a zeroed array of 128 -/
def buildHeader (mb me : Nat) (type : List Byte) (length : Nat) : Header :=
  ⟨magicNo, 1, (mb * 0x80 + me * 0x40) % 2 ^ 16, length, type.take 127 ++ List.replicate (128 - (type.take 127).length) 0#8⟩

/-- the bytes written by ILDG_File_write_record_header, ILDG_File.cpp:275-288: the struct has no holes (offsets 0, 4, 6, 8, 16, size 144);
length, magic number and version are converted to big endian, the MB/ME flags are not -/
def headerBytes (native : Endianness) (junk : Mem) (h : Header) : List Byte :=
  image 4 (fixFromNative native .big 4 junk (bytesOf native 4 h.magic)) ++
  image 2 (fixFromNative native .big 2 junk (bytesOf native 2 h.version)) ++
  image 2 (bytesOf native 2 h.mbme) ++
  image 8 (fixFromNative native .big 8 junk (bytesOf native 8 h.length)) ++
  h.type

/-- the object found at an offset of the struct just read -/
def fieldAt (b : List Byte) (off : Nat) : Mem := fun i => b.getD (off + i) 0#8

/-- the conversions of ILDG_File_get_next_record_header, ILDG_File.cpp:213-218 -/
def parseHeader (native : Endianness) (junk : Mem) (b : List Byte) : Header :=
  ⟨valueOf native 4 (fixToNative native .big 4 junk (fieldAt b 0)),
   valueOf native 2 (fixToNative native .big 2 junk (fieldAt b 4)),
   valueOf native 2 (fieldAt b 6),
   valueOf native 8 (fixToNative native .big 8 junk (fieldAt b 8)),
   (b.drop 16).take 128⟩

/-- ILDG_File_get_next_record_header, ILDG_File.cpp:207-230 -/
def getNextHeader (native : Endianness) (junk : Mem) (ignoreMagic : Bool) (s : Stream) : Option (Header × Stream) :=
  (readAll (seek8 s) 144).bind (fun r =>
    let h := parseHeader native junk r.1
    if h.magic ≠ magicNo ∧ ignoreMagic = false then none else some (h, r.2))

/-- ILDG_File_skip_record, ILDG_File.cpp:233-239 -/
def skipRecord (s : Stream) (h : Header) : Stream := seek8 (skipBytes (seek8 s) h.length)

/-- `strcmp(name,type)==0` for a name of less than 128 characters and an array of 128: `none` when the comparison goes past the array -/
def strcmpEq (name type : List Byte) : Option Bool :=
  if name.length < type.length ∨ type.isPrefixOf name = false then some ((name ++ [0#8]).isPrefixOf type) else none

/-- `strdup(type)`: the characters before the first zero, `none` if there is no zero in the array -/
def cstr (a : List Byte) : Option (List Byte) := if 0#8 ∈ a then some (a.takeWhile (· ≠ 0#8)) else none

/-- a message of the chain, ILDG_File.hpp:55-62: the chain is the list of its messages, ILDG_bin_message_append_to_last
(ILDG_File.cpp:59-78) appends to the list -/
structure Msg where
  name : List Byte
  data : List Byte
deriving DecidableEq

/-- ILDG_File_search_record, ILDG_File.cpp:293-321. `collect` tells if a chain of messages was passed. The fuel bounds the iterations: each
of them consumes the 144 bytes of a header, so the size of the file is always enough (`search_fuel`). The result is: found, header (`none`: never assigned), messages
collected, position. -/
def searchAux (native : Endianness) (junk : Mem) (ignoreMagic : Bool) (name : List Byte) (collect : Bool) :
    Nat → Stream → Option Header → List Msg → Option (Bool × Option Header × List Msg × Stream)
  | 0, _, _, _ => none
  | fuel + 1, s, hd, ms =>
    if reachedEOF s then some (false, hd, ms, s)
    else (getNextHeader native junk ignoreMagic s).bind (fun r =>
      (strcmpEq name r.1.type).bind (fun eq =>
        if eq then some (true, some r.1, ms, r.2)
        else if collect = false then searchAux native junk ignoreMagic name collect fuel (skipRecord r.2 r.1) (some r.1) ms
        else (readAll r.2 r.1.length).bind (fun d =>
          (cstr r.1.type).bind (fun n =>
            searchAux native junk ignoreMagic name collect fuel d.2 (some r.1) (ms ++ [⟨n, d.1⟩])))))

/-- the search with enough fuel -/
def search (native : Endianness) (junk : Mem) (ignoreMagic : Bool) (name : List Byte) (collect : Bool) (s : Stream) :
    Option (Bool × Option Header × List Msg × Stream) :=
  searchAux native junk ignoreMagic name collect (s.bytes.length + 1) s none []

/-! ### Writing -/

/-- a file opened for writing by all the ranks: common content, one position per rank -/
structure Disk where
  bytes : List Byte
  pos : Nat → Nat

/-- the content after writing at a position, also beyond the end (zeros in between) -/
def overwrite (b : List Byte) (pos : Nat) (data : List Byte) : List Byte :=
  (b ++ List.replicate (pos - b.length) 0#8).take pos ++ data ++ b.drop (pos + data.length)

/-- ILDG_File_master_write, ILDG_File.cpp:242-258: rank 0 writes, all the others only move -/
def masterWrite (d : Disk) (data : List Byte) : Disk :=
  ⟨overwrite d.bytes (d.pos 0) data, fun rank => d.pos rank + data.length⟩

/-- ILDG_File_write_record, ILDG_File.cpp:393-410 -/
def writeRecord (native : Endianness) (junk : Mem) (d : Disk) (type ext : List Byte) : Disk :=
  let len := ceil8 ext.length
  let buf := ext ++ List.replicate (len - ext.length) 0#8
  masterWrite (masterWrite d (headerBytes native junk (buildHeader 0 0 type len))) buf

/-- ILDG_File_write_all_messages, ILDG_File.cpp:437-442 -/
def writeAllMessages (native : Endianness) (junk : Mem) (d : Disk) (ms : List Msg) : Disk :=
  ms.foldl (fun d m => writeRecord native junk d m.name m.data) d

/-! ### Checksum record -/

/-- text (without the final 0) to bytes and back -/
def toBytes (s : Nissa.Text.Str) : List Byte := s.map (BitVec.ofNat 8)
def ofBytes (b : List Byte) : Nissa.Text.Str := b.map (·.toNat)

/-- character codes of a literal -/
def lit (s : String) : Nissa.Text.Str := s.toList.map (·.toNat)

/-- the text prepared by ILDG_File_write_checksum, ILDG_File.cpp:421-432 -/
def checksumText (a b : Nat) : Nissa.Text.Str :=
  lit "<?xml version=\"1.0\" encoding=\"UTF-8\"?><scidacChecksum><version>1.0</version>" ++
  (lit "<suma>" ++ (Nissa.Text.printHex010 a ++ (lit "</suma>" ++ (lit "<sumb>" ++ (Nissa.Text.printHex010 b ++ lit "</sumb></scidacChecksum>")))))

/-- ILDG_File_write_text_record, ILDG_File.cpp:412-415: strlen+1 bytes -/
def writeTextRecord (native : Endianness) (junk : Mem) (d : Disk) (type : List Byte) (text : Nissa.Text.Str) : Disk :=
  writeRecord native junk d type (toBytes text ++ [0#8])

/-- ILDG_File_write_checksum, ILDG_File.cpp:418-434 (`sprintf` on 1024 characters: see `C23_buffer`) -/
def writeChecksum (native : Endianness) (junk : Mem) (d : Disk) (a b : Nat) : Disk :=
  writeTextRecord native junk d (toBytes (lit "scidac-checksum")) (checksumText a b)

/-- what ILDG_File_read_checksum does once the text is in memory, ILDG_File.cpp:348-361 -/
def parseChecksum (mess : Nissa.Text.Str) : Nat × Nat :=
  match Nissa.Text.strstr (lit "<suma>") mess, Nissa.Text.strstr (lit "<sumb>") mess with
  | some ha, some hb =>
    match Nissa.Text.scanHex (ha.drop 6) with
    | none => (0, 0)
    | some a => match Nissa.Text.scanHex (hb.drop 6) with
      | none => (a, 0)
      | some b => (a, b)
  | _, _ => (0, 0)

/-- ILDG_File_read_checksum, ILDG_File.cpp:324-367. Outer `none`: CRASH; inner `none`: the record was not found and the two words returned
are uninitialised -/
def readChecksum (native : Endianness) (junk : Mem) (ignoreMagic : Bool) (s : Stream) : Option (Option (Nat × Nat) × Stream) :=
  (search native junk ignoreMagic (toBytes (lit "scidac-checksum")) false s).bind (fun r =>
    match r.1, r.2.1 with
    | true, some h => (readAll r.2.2.2 h.length).bind (fun d =>
        (cstr (d.1 ++ [0#8])).bind (fun t => some (some (parseChecksum (ofBytes t)), d.2)))
    | _, _ => some (none, r.2.2.2))

end Nissa.Ildg
