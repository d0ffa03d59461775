/-
Model of the writing and of the reading of whole fields and gauge configurations: /repo/src/io/writer.hpp:17-105, /repo/src/io/reader.hpp:14-98,
/repo/src/io/ILDG_File.hpp:147-216 and 279-348, /repo/src/new_types/su3_op.hpp:201-225.

The memory of a field on a rank is a function from offsets to bytes, in the CPU layout: site-major, then the internal degrees of freedom
(`sizeofT` bytes each). The record layer, the checksum, the endianness and the all-to-all communication are those of Io/Ildg.lean,
Io/Checksum.lean, Io/Endian.lean, Comm/. The GPU layout (and the copies between layouts and memory spaces) is not modelled; the unitarity check
and the plaquette printed after the reading of a configuration do not change it and are not modelled here.
-/
import Verif.Io.Ildg
import Verif.Io.Checksum
import Verif.Comm.Layouts
import Verif.Comm.Remap
set_option linter.all false

namespace Nissa.FieldIo
open Nissa.Lx Nissa.A2A Nissa.Layouts Nissa.Ildg
open Nissa.Endian (Byte Mem Endianness bytesOf valueOf fixToNative fixFromNative)
open Nissa.Checksum (ildgChecksum)

/-- memory of all the ranks -/
abbrev Memory := Nat → Nat → Byte

/-- what is not determined by the program: the machine, the schedules, the uninitialised memory -/
structure Env where
  native : Endianness
  junkReal : Mem
  junkList : Nat → Nat
  junkElem : Nat → List Byte
  packOrder : Nat → List Nat
  sched : Nat → Nat → List Nat
  shift32 : BitVec 32 → BitVec 32
  rankOrder : List Nat
  ignoreMagic : Bool
  junkCheck : Nat × Nat

/-- an element of `bps` bytes of an array -/
def chunk (bps : Nat) (m : Nat → Byte) (i : Nat) : List Byte := (List.range bps).map (fun b => m (i * bps + b))

/-- memory made of elements of `bps` bytes -/
def unchunk (bps : Nat) (c : Nat → List Byte) : Nat → Byte := fun b => (c (b / bps)).getD (b % bps) 0#8

/-- vector_remap_t::remap, /repo/src/communicate/all_to_all.hpp: `bps` bytes per site are moved to the rank and position given by `idx` -/
def Remaps (e : Env) (g : Geo) (idx : Nat → Nat → Nat × Nat) (bps : Nat) (inp out res : Memory) : Prop :=
  ∃ resC, RunsTo g.nranks (remapList g.nranks (fun _ => g.locVol) idx) e.junkList e.junkElem e.packOrder
      (fun r => chunk bps (inp r)) (fun r => chunk bps (out r)) resC ∧ res = fun r => unchunk bps (resC r)

/-- FOR_EACH_SITE_DEG_OF_FIELD with fixFromNativeEndianness or fixToNativeEndianness, ILDG_File.hpp:175-181 and 337-343: `n` numbers of `sizeofT`
bytes are converted one by one -/
def fixAll (fix : Mem → Mem) (sizeofT n : Nat) (m : Nat → Byte) : Nat → Byte := fun b =>
  if b < n * sizeofT then fix (fun j => m (b / sizeofT * sizeofT + j)) (b % sizeofT) else m b

/-- the field as seen by the checksum -/
def degOf (sizeofT nDegs : Nat) (m : Memory) (rk ivol iDeg : Nat) : Mem := fun b => m rk ((ivol * nDegs + iDeg) * sizeofT + b)

/-- ildgChecksum of a field in memory, /repo/src/io/checksum.hpp -/
def checkOf (e : Env) (sizeofT nDegs : Nat) (g : Geo) (X : Nat → Nat → Coords) (m : Memory) (k : Fin 2) : Nat :=
  (ildgChecksum e.shift32 e.native sizeofT nDegs e.sched g X (degOf sizeofT nDegs m) k).toNat

/-! ### Writing -/

/-- ILDG_File_set_position, ILDG_File.cpp:153-157 -/
def setPosition (d : Disk) (p : Nat → Nat) : Disk := ⟨d.bytes, p⟩

/-- the fwrite of all the ranks, ILDG_File.hpp:191-202: each writes `nb` bytes starting from its own position (flushed by the following seek), in
any order -/
def writeBlocks (order : List Nat) (nb : Nat) (pos : Nat → Nat) (temp : Memory) (b : List Byte) : List Byte :=
  order.foldl (fun b r => overwrite b (pos r) ((List.range nb).map (temp r))) b

/-- the end of ILDG_File_write_ildg_data_all, ILDG_File.hpp:183-216: header, data, padding. `temp` is the remapped and converted field -/
def writeDataRecord (e : Env) (g : Geo) (name : List Byte) (len : Nat) (temp : Memory) (d : Disk) : Disk :=
  let d1 := masterWrite d (headerBytes e.native e.junkReal (buildHeader 0 0 name len))
  let nb := len / g.nranks
  let d2 : Disk := ⟨writeBlocks e.rankOrder nb (fun r => d1.pos r + r * nb) temp d1.bytes, d1.pos⟩
  let d3 := setPosition d2 (fun r => d1.pos r + ceil8 len)
  if len % 8 ≠ 0 then masterWrite d3 (List.replicate (8 - len % 8) 0#8) else d3

/-- ILDG_File_write_ildg_data_all, ILDG_File.hpp:148-216 -/
def WritesData (e : Env) (g : Geo) (X : Nat → Nat → Coords) (sizeofT nDegs : Nat) (name : List Byte) (inp : Memory) (d d' : Disk) : Prop :=
  let len := nDegs * sizeofT * g.glbVol
  ∃ (tempInit temp : Memory), Remaps e g (indexToIldg g X) (len / g.glbVol) inp tempInit temp ∧
    d' = writeDataRecord e g name len
      (fun r => fixAll (fixFromNative e.native .big sizeofT e.junkReal) sizeofT (g.locVol * nDegs) (temp r)) d

/-- write_real_vector on an open file, writer.hpp:18-43 -/
def WritesVector (e : Env) (g : Geo) (X : Nat → Nat → Coords) (sizeofT nDegs : Nat) (name : List Byte) (ms : List Msg) (inp : Memory) (d d' : Disk) : Prop :=
  ∃ d2, WritesData e g X sizeofT nDegs name inp (writeAllMessages e.native e.junkReal d ms) d2 ∧
    d' = writeChecksum e.native e.junkReal d2 (checkOf e sizeofT nDegs g X inp 0) (checkOf e sizeofT nDegs g X inp 1)

/-- ILDG_File_open_for_write: all the ranks truncate the file before the first of them writes (there is a barrier in the first write, before the
buffer of the master is flushed), ILDG_File.cpp:102-124 and 245-263 -/
def emptyDisk : Disk := ⟨[], fun _ => 0⟩

/-- the text of the ildg-format record, writer.hpp:74-87 -/
def formatText (prec lx ly lz lt : Nat) : Nissa.Text.Str :=
  lit "<?xml version=\"1.0\" encoding=\"UTF-8\"?>\n" ++ (lit "<ildgFormat xmlns=\"http://www.lqcd.org/ildg\"\n" ++
  (lit "            xmlns:xsi=\"http://www.w3.org/2001/XMLSchema-instance\"\n" ++ (lit "            xsi:schemaLocation=\"http://www.lqcd.org/ildg filefmt.xsd\">\n" ++
  (lit "  <version>1.0</version>\n" ++ (lit "  <field>su3gauge</field>\n" ++ (lit "  <precision>" ++ (Nissa.Text.print 8 prec ++ (lit "</precision>\n" ++
  (lit "  <lx>" ++ (Nissa.Text.print 8 lx ++ (lit "</lx>\n" ++ (lit "  <ly>" ++ (Nissa.Text.print 8 ly ++ (lit "</ly>\n" ++
  (lit "  <lz>" ++ (Nissa.Text.print 8 lz ++ (lit "</lz>\n" ++ (lit "  <lt>" ++ (Nissa.Text.print 8 lt ++ (lit "</lt>\n" ++ lit "</ildgFormat>"))))))))))))))))))))

/-- arguments of the sprintf, writer.hpp:87 -/
def formatOf (L : Coords) : Nissa.Text.Str := formatText 64 (L 3) (L 2) (L 1) (L 0)

/-- bytes of a link: 9 complex doubles -/
def linkBytes : Nat := 144

/-- a quad_su3 rewritten through a buffer, su3_op.hpp:201-225: the link `mu` of the buffer goes in `dest mu`; all offsets within the site -/
def reordSite (dest : Nat → Nat) (m : Nat → Byte) : Nat → Byte :=
  (List.range 4).foldl (fun out mu => fun b => if b / linkBytes = dest mu then m (mu * linkBytes + b % linkBytes) else out b) m

/-- the loop on the sites of a rank, writer.hpp:90-95, 100-105, reader.hpp:84-89 -/
def reordAll (dest : Nat → Nat) (locVol : Nat) (m : Nat → Byte) : Nat → Byte := fun b =>
  if b < locVol * (4 * linkBytes) then reordSite dest (fun j => m (b / (4 * linkBytes) * (4 * linkBytes) + j)) (b % (4 * linkBytes)) else m b

/-- quad_su3_nissa_to_ildg_reord, su3_op.hpp:203-213 -/
def toIldg (mu : Nat) : Nat := (mu + 4 - 1) % 4

/-- quad_su3_ildg_to_nissa_reord, su3_op.hpp:215-225 -/
def fromIldg (mu : Nat) : Nat := (mu + 1) % 4

def confName : List Byte := toBytes (lit "ildg-binary-data")

/-- write_ildg_gauge_conf, writer.hpp:61-109: the configuration in memory is reordered, written, and reordered back -/
def WritesConf (e : Env) (g : Geo) (X : Nat → Nat → Coords) (ms : List Msg) (conf : Memory) (d' : Disk) (conf' : Memory) : Prop :=
  WritesVector e g X 8 72 confName ms (fun r => reordAll toIldg g.locVol (conf r))
    (writeTextRecord e.native e.junkReal emptyDisk (toBytes (lit "ildg-format")) (formatOf g.L)) d' ∧
  conf' = fun r => reordAll fromIldg g.locVol (reordAll toIldg g.locVol (conf r))

/-! ### Reading -/

/-- what is printed about the checksum, reader.hpp:36-53 -/
inductive Verdict where
  | agree | disagree | notFound
  deriving DecidableEq

/-- reader.hpp:37-53 -/
def verdictOf (read comp : Nat × Nat) : Verdict :=
  if read.1 ≠ 0 ∨ read.2 ≠ 0 then (if read.1 ≠ comp.1 ∨ read.2 ≠ comp.2 then .disagree else .agree) else .notFound

/-- the buffer of a rank after the fread of `nb` bytes at `pos`, ILDG_File.hpp:289-311 -/
def readBlock (bytes : List Byte) (pos nb : Nat) (init : Nat → Byte) : Nat → Byte := fun b => if b < nb then bytes.getD (pos + b) 0#8 else init b

/-- read_real_vector on a path, reader.hpp:14-70, with ILDG_File_read_ildg_data_all, ILDG_File.hpp:280-348. `none` is a CRASH; otherwise the content of
the field, the messages collected and the verdict on the checksum. `sizeof(double)` is 8, as the numbers of the field. -/
def ReadsVector (e : Env) (g : Geo) (X : Nat → Nat → Coords) (nDegs : Nat) (name : List Byte) (collect : Bool) (bytes : List Byte) (init : Memory)
    (res : Option (Memory × List Msg × Verdict)) : Prop :=
  match search e.native e.junkReal e.ignoreMagic name collect ⟨bytes, 0⟩ with
  | some (true, some h, ms, s) =>
    if h.length / g.glbVol > nDegs * 8 then res = none
    else if ∃ r, r < g.nranks ∧ bytes.length < s.pos + r * (h.length / g.nranks) + h.length / g.nranks then res = none
    else ∃ (bufInit out : Memory), Remaps e g (indexFromIldg g) (h.length / g.glbVol)
        (fun r => readBlock bytes (s.pos + r * (h.length / g.nranks)) (h.length / g.nranks) (bufInit r)) init out ∧
      let fld : Memory := fun r => fixAll (fixToNative e.native .big 8 e.junkReal) 8 (g.locVol * nDegs) (out r)
      match readChecksum e.native e.junkReal e.ignoreMagic ⟨bytes, s.pos + ceil8 h.length⟩ with
      | none => res = none
      | some (c, _) => res = some (fld, ms, verdictOf (c.getD e.junkCheck) (checkOf e 8 nDegs g X fld 0, checkOf e 8 nDegs g X fld 1))
  | _ => res = none

/-- read_ildg_gauge_conf, reader.hpp:73-98 -/
def ReadsConf (e : Env) (g : Geo) (X : Nat → Nat → Coords) (collect : Bool) (bytes : List Byte) (init : Memory)
    (res : Option (Memory × List Msg × Verdict)) : Prop :=
  ∃ r, ReadsVector e g X 72 confName collect bytes init r ∧
    res = r.map (fun x => (fun rk => reordAll fromIldg g.locVol (x.1 rk), x.2))

end Nissa.FieldIo
