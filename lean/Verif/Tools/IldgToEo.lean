/-
Model of the tool converting an ILDG configuration into the even/odd layout of another program.

  /repo/tools/conf_transform/convert/ildg_to_eo.cpp: 8-26 (index_from_lx_to_Neo), 28-83 (conf_convert), 85-136 (main: sizes T and L, so that the
  three space directions have the same length; remapper of 4*locVol links)

Simplifications: integers are not bounded; the content of the memory of a link after the conversion to little endian is a parameter; the file is a
function from positions to bytes. The bytes written by rank 0 before the first barrier stay in the buffer of its FILE until the fseek of line 66
(fewer bytes than a buffer), when every rank has opened the file.
-/
import Verif.Comm.LayoutsCases
import Verif.Stencil.Lattice
set_option linter.all false

namespace Nissa.ToEo
open Nissa.Lx Nissa.A2A Nissa.Layouts

/-- mu_ord, ildg_to_eo.cpp:10 -/
def muOrd : Dir → Dir := ![0, 3, 2, 1]

/-- glb_site_dest, ildg_to_eo.cpp:11-21, for the link `mu` of the site of global coordinates `c` -/
def globDest (L c : Coords) (mu : Dir) : Nat :=
  let shift := if coordParity c = 0 then 1 else 0
  let g : Coords := dirs.foldl (fun g nu => Function.update g (muOrd nu) (c nu)) (fun _ => 0)
  let g : Coords := if shift ≠ 0 then Function.update g (muOrd mu) ((g (muOrd mu) + 1) % L (muOrd mu)) else g
  lxOfCoord g L / 2 * 8 + (muOrd mu).val * 2 + shift

/-- the direction with number `n` -/
def dirOf (n : Nat) : Dir := ⟨n % 4, Nat.mod_lt _ (by decide)⟩

/-- index_from_lx_to_Neo, ildg_to_eo.cpp:8-26, on a rank; `X rank ilx` is `glbCoordOfLoclx[ilx]` -/
def indexToNeo (g : Geo) (X : Nat → Nat → Coords) (rank iel : Nat) : Nat × Nat :=
  let ilx := iel / 4
  let mu := iel - ilx * 4
  let dest := globDest g.L (X rank ilx) (dirOf mu)
  let rankOut := dest / (8 * locVolh g)
  (rankOut, dest - rankOut * 8 * locVolh g)

/-- a file: a byte at each position, none beyond the end -/
abbrev File := Nat → Option Nat

/-- fwrite of `n` bytes at a position; what is between the end of the file and the position is filled with zeros -/
def writeBytes (f : File) (at_ n : Nat) (b : Nat → Nat) : File := fun p =>
  if at_ ≤ p ∧ p < at_ + n then some (b (p - at_)) else match f p with
    | some x => some x
    | none => if p < at_ then some 0 else none

/-- sizeof(su3) -/
def linkBytes : Nat := 144

/-- the writes of conf_convert, ildg_to_eo.cpp:43-73: the header by rank 0, then each rank its `locVol` quad_su3. `header` are the 24 bytes of the
four sizes and of the plaquette, `buf r` the links of the rank after the remapping, `enc` the bytes of a link; `order` is the order in which the
ranks write -/
def convertFile {α : Type} (locVol : Nat) (header : Nat → Nat) (enc : α → Nat → Nat) (buf : Nat → Nat → α) (order : List Nat) : File :=
  order.foldl (fun f r => writeBytes f (24 + r * (4 * linkBytes) * locVol) (4 * linkBytes * locVol) (fun b => enc (buf r (b / linkBytes)) (b % linkBytes)))
    (writeBytes (fun _ => none) 0 24 header)

end Nissa.ToEo
