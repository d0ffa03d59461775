import Verif.Dirac.Inverters
import Verif.Hmc.PropsBackfield2

/-! # Staggered spin-taste operators

Models `/repo/src/measures/fermions/stag.cpp` and `/repo/src/measures/fermions/stag.hpp`.  The fields are those of the staggered operator
(`Dirac/StD.lean`): index of the rank, parity, index in the parity.  Exact arithmetic; `ji`, `jq`, `jv`, `jc`, `junk` stand for never written
values.  The output, the scratch fields and the input are taken to be different objects, except where `same` tells that two of them are not. -/

set_option linter.all false

namespace Nissa.Stag
open Nissa.Lx Nissa.Sten Nissa.Su3f Nissa.Gauge Nissa.StD Nissa.Back Matrix

noncomputable section

/-- `EoField<color>` on all the ranks -/
abbrev EoCol := Nat → Nat → Nat → Col
/-- `EoField<quad_su3>` on all the ranks -/
abbrev EoConf := Nat → Nat → Nat → Quad
/-- `EoField<quad_u1>` on all the ranks -/
abbrev EoU1 := Nat → Nat → Nat → Quad1

/-- `shift_orie_t`.  `/repo/src/measures/fermions/stag.hpp:117` -/
inductive Side | UP | DW | BOTH
  deriving DecidableEq

/-- `summ_covariant_shift`: the new content of `out` (which is put to zero at each site before adding); `none` is the CRASH when the input is
the output.  `/repo/src/measures/fermions/stag.cpp:17-51` -/
def summ_covariant_shift (g : Geo) (ji : Nat) (jq : Quad) (jv : Col) (same : Bool) (conf : EoConf) (mu : Dir) (inp : EoCol) (side : Side) : Option EoCol :=
  if same then none else some fun rk eo ieo =>
    let r := coordOfLx rk g.R
    let cf := eoMem g jq conf r
    let iv := eoMem g jv inp r
    let up := eupT g r ji eo ieo mu
    let dw := edwT g r ji eo ieo mu
    let out : Col := 0
    let out := if side = .BOTH ∨ side = .UP then out + (cf eo ieo mu) *ᵥ iv (1 - eo) up else out
    let out := if side = .BOTH ∨ side = .DW then out + (cf (1 - eo) dw mu)ᴴ *ᵥ iv (1 - eo) dw else out
    if side = .BOTH then (0.5 : ℝ) • out else out

/-- `apply_covariant_shift`.  `/repo/src/measures/fermions/stag.cpp:54-62` -/
def apply_covariant_shift (g : Geo) (ji : Nat) (jq : Quad) (jv : Col) (same : Bool) (conf : EoConf) (mu : Dir) (inp : EoCol) (side : Side) : Option EoCol :=
  summ_covariant_shift g ji jq jv same conf mu inp side

/-- `apply_shift_op_single_perm`: content of `(temp, out)` after the call; `out0` is the content of `out` before.
`/repo/src/measures/fermions/stag.cpp:100-118` -/
def apply_shift_op_single_perm (g : Geo) (ji : Nat) (jq : Quad) (jv : Col) (same : Bool) (conf : EoConf) (list_dir : List Dir) (inp out0 : EoCol) : Option (EoCol × EoCol) :=
  list_dir.zipIdx.foldlM (fun (s : EoCol × EoCol) (mi : Dir × Nat) =>
    let temp := if mi.2 ≠ 0 then s.2 else s.1
    (apply_covariant_shift g ji jq jv same conf mi.1 temp .BOTH).map fun out => (temp, out)) (inp, out0)

/-- `std::next_permutation`, as specified by the C++ standard: the next arrangement in lexicographic order, `none` (return value `false`) when
there is none.  Used at `/repo/src/measures/fermions/stag.cpp:160` -/
def nextPermutation : List Dir → Option (List Dir)
  | [] => none
  | a :: t =>
    match nextPermutation t with
    | some t' => some (a :: t')
    | none => -- the tail is decreasing
      match t.reverse.find? (fun b => a < b) with
      | some b => some (b :: t.reverse.map (fun c => if c = b then a else c))
      | none => none

/-- the bit `mu` of a mask of type int: `(mask>>mu)&0x1` -/
def bit (mask : Int) (mu : Nat) : Bool := (mask >>> mu) % 2 = 1

/-- the list of the directions, sorted.  `/repo/src/measures/fermions/stag.cpp:130-134` -/
def listDir (shift : Int) : List Dir :=
  (dirs.foldl (fun (l : List Dir) (mu : Dir) => if bit shift mu then l ++ [mu] else l) []).insertionSort (· ≤ ·)

/-- state of the loop on the permutations -/
structure PermState where
  out : EoCol
  single : EoCol
  nperm : Nat

/-- body of the loop.  `/repo/src/measures/fermions/stag.cpp:148-159` -/
def permBody (g : Geo) (ji : Nat) (jq : Quad) (jv : Col) (same : Bool) (conf : EoConf) (inp : EoCol) (list_dir : List Dir) (s : PermState) : Option PermState :=
  (apply_shift_op_single_perm g ji jq jv same conf list_dir inp s.single).map fun r =>
    ⟨fun rk p e => s.out rk p e + r.2 rk p e, r.2, s.nperm + 1⟩

/-- the `do ... while(next_permutation)`, cut at `fuel` turns (`none`).  `/repo/src/measures/fermions/stag.cpp:146-160` -/
def permLoop (body : List Dir → PermState → Option PermState) : Nat → List Dir → PermState → Option PermState
  | 0, _, _ => none
  | fuel + 1, l, s => do
    let s ← body l s
    match nextPermutation l with
    | some l' => permLoop body fuel l' s
    | none => some s

/-- `apply_shift_op`: the new content of `out`.  `single0` is the content of `single_perm` before the call; `same` if `single_perm` and
`internal_temp` are the same field.  The removal of the background from the local copy of the configuration, which is then destroyed, is left out.
`/repo/src/measures/fermions/stag.cpp:121-172` -/
def apply_shift_op (g : Geo) (ji : Nat) (jq : Quad) (jv : Col) (jc : Coords) (junk : Dir → Int) (same : Bool) (conf : EoConf) (u1b : EoU1) (shift : Int)
    (inp single0 : EoCol) : Option EoCol :=
  let list_dir := listDir shift
  if list_dir.length ≠ 0 then
    let conf := add_or_rem_backfield_eo g ji jc junk conf false u1b true
    (permLoop (permBody g ji jq jv same conf inp) 24 list_dir ⟨fun _ _ _ => 0, single0, 0⟩).map fun s =>
      fun rk p e => ((1 : ℝ) / (s.nperm : ℝ)) • s.out rk p e
  else some inp

/-- the sign of a site: `/repo/src/measures/fermions/stag.cpp:188-190` -/
def siteSign (mask : Int) (c : Coords) : Int :=
  dirs.foldl (fun (sign : Int) (mu : Dir) => sign * (1 - 2 * (if bit mask mu ∧ c mu % 2 = 1 then 1 else 0))) 1

/-- `put_stag_phases`.  `/repo/src/measures/fermions/stag.cpp:175-195` -/
def put_stag_phases (g : Geo) (ji : Nat) (jc : Coords) (source : EoCol) (mask : Int) : EoCol := fun rk p e =>
  ((siteSign mask (eoCoord g ji jc rk p e) : ℝ)) • source rk p e

/-- `form_stag_op_pattern`.  `/repo/src/measures/fermions/stag.hpp:11-26` -/
def form_stag_op_pattern (ispin itaste : Int) : Int :=
  (List.range 4).foldl (fun res mu =>
    let p := ((List.range mu).map fun nu => if bit itaste nu then 1 else 0).sum
    let p := p + (((List.range 4).filter fun nu => mu + 1 ≤ nu).map fun nu => if bit ispin nu then 1 else 0).sum
    let p := p % 2
    res + (p : Nat) * 2 ^ mu) 0

/-- exclusive or of two int, of which only the four lowest bits are kept (the others are never looked at) -/
def xor4 (a b : Int) : Int := (List.range 4).foldl (fun (r : Int) mu => r + (if bit a mu != bit b mu then 2 ^ mu else 0)) 0

/-- `form_stag_meson_pattern_with_g5g5`.  `/repo/src/measures/fermions/stag.hpp:27-33` -/
def form_stag_meson_pattern_with_g5g5 (ispin itaste : Int) : Int := form_stag_op_pattern (xor4 ispin 15) (xor4 itaste 15)

/-- `apply_stag_op`; `temp0` is the content of the scratch field.  `/repo/src/measures/fermions/stag.hpp:137-161` -/
def apply_stag_op (g : Geo) (ji : Nat) (jq : Quad) (jv : Col) (jc : Coords) (junk : Dir → Int) (conf : EoConf) (u1b : EoU1) (spin taste : Int)
    (inp temp0 : EoCol) : Option EoCol :=
  let shift := xor4 spin taste
  let mask := form_stag_op_pattern spin taste
  (apply_shift_op g ji jq jv jc junk false conf u1b shift inp temp0).map fun out => put_stag_phases g ji jc out mask

/-- `mult_Minv`.  The argument `conf` is a copy.  `/repo/src/measures/fermions/stag.cpp:198-208`; the other version, 210-218, reads the mass and
the background of the flavour. -/
def mult_Minv {g : Geo} (ok : g.Ok) (eo : EoOk g) (ji : Nat) (jq : Quad) (jv : Col) (jc : Coords) (junk : Dir → Int) (conf : EoConf) (u1b : EoU1) (m residue : ℝ)
    (source : EoCol) : Except Cg.Crash EoCol :=
  let conf := add_or_rem_backfield_eo g ji jc junk conf false u1b false
  Inv.inv_stD_cg ok eo ji jq jv none conf m 100000 residue source

/-- `mult_dMdmu`: `none` is the CRASH for order zero.  `/repo/src/measures/fermions/stag.cpp:323-358` -/
def mult_dMdmu (g : Geo) (ji : Nat) (jq : Quad) (jv : Col) (jc : Coords) (junk : Dir → Int) (conf : EoConf) (u1b : EoU1) (ord : Nat) (inp : EoCol) : Option EoCol :=
  if ord = 0 then none else
    let conf := add_or_rem_backfield_eo g ji jc junk conf false u1b false
    some fun rk par ieo =>
      let r := coordOfLx rk g.R
      let cf := eoMem g jq conf r
      let iv := eoMem g jv inp r
      let temp := (cf par ieo 0) *ᵥ iv (1 - par) (eupT g r ji par ieo 0)
      let idw := edwT g r ji par ieo 0
      let temp := if ord % 2 = 0 then temp - (cf (1 - par) idw 0)ᴴ *ᵥ iv (1 - par) idw else temp + (cf (1 - par) idw 0)ᴴ *ᵥ iv (1 - par) idw
      (0.5 : ℝ) • temp

/-! ### Specification, on the global lattice -/

/-- covariant average of the two neighbours in a direction -/
def symShift (g : Geo) (U : Coords → Quad) (mu : Dir) (x : Coords → Col) : Coords → Col := fun c =>
  (1 / 2 : ℝ) • ((U c mu) *ᵥ x (tshift g c mu 1) + (U (tshift g c mu (-1)) mu)ᴴ *ᵥ x (tshift g c mu (-1)))

/-- the covariant averages along a list of directions, the first of the list first -/
def pathShift (g : Geo) (U : Coords → Quad) (l : List Dir) (x : Coords → Col) : Coords → Col := l.foldl (fun x mu => symShift g U mu x) x

/-- average, over all the orderings of the directions in `S`, of the covariant shifts along them -/
def shiftOp (g : Geo) (U : Coords → Quad) (S : Finset Dir) (x : Coords → Col) : Coords → Col := fun c =>
  ((1 : ℝ) / (Nat.factorial S.card : ℝ)) • ((S.toList.permutations.map fun l => pathShift g U l x c).sum)

/-- the directions of the bits of a mask -/
def bits (mask : Int) : Finset Dir := Finset.univ.filter fun mu => bit mask mu

/-- the sign `(-1)^(sum of the coordinates in S)` -/
def sgn (S : Finset Dir) (c : Coords) : ℝ := (-1) ^ (∑ mu ∈ S, c mu)

end

end Nissa.Stag
