/-
Model of the choice of the momenta kept by the Fourier filter of the `ib` program.
Source: /repo/projects/ib/prop.cpp:1064-1135 (init_fft_filter_from_range), :1155-1206 (init_fft_filterer_from_file),
/repo/src/geometry/geometry_lx.hpp:262-281 (coordsSum), :373-378 (get_mirrorized_site_coord).
Simplifications: `double` is `ℝ` (exact sines), the comparison with the NaN 0/0 is false as in IEEE arithmetic; `int` is `Int`, with the truncated
remainder of C++; `std::set<int>` is the list of its elements in order of insertion, of which only membership and size are used;
`temporal_bc` is 1 (antiperiodic) or 0 (periodic), the two values ib.cpp:44,52 can set; a file is the list of the integers
that `fscanf` reads from it before the first failure.
-/
import Verif.Geometry.PropsLx
import Mathlib.Analysis.SpecialFunctions.Trigonometric.Basic

set_option linter.all false

namespace Nissa.MomF
open Nissa.Lx

/-- `fft_mom_range_t` with the threshold it comes with, pars.cpp:322-344 -/
structure Range where
  offs : ICoords
  width : Coords
  p4max : ℝ

/-- `(mu==0)*temporal_bc` -/
def bcAt (anti : Bool) (mu : Dir) : Int := if mu = 0 ∧ anti = true then 1 else 0

/-- coordinates of point `ifilt` of the range: `coordOfLx` then `coordsSummassign`, prop.cpp:1082-1083, geometry_lx.hpp:262-272 -/
def rangePoint (s : Coords) (r : Range) (ifilt : Nat) : ICoords :=
  fun mu => ((coordOfLx ifilt r.width mu : Int) + r.offs mu).tmod (s mu)

/-- `ptmu`, prop.cpp:1089-1090 -/
noncomputable def ptmu (s : Coords) (anti : Bool) (c : ICoords) (mu : Dir) : ℝ :=
  Real.sin (Real.pi * ((2 * c mu + bcAt anti mu : Int) : ℝ) / (s mu : ℝ))

/-- `pt2`, `pt4`, prop.cpp:1086-1093 -/
noncomputable def pt2 (s : Coords) (anti : Bool) (c : ICoords) : ℝ := dirs.foldl (fun a mu => a + (ptmu s anti c mu) ^ 2) 0
noncomputable def pt4 (s : Coords) (anti : Bool) (c : ICoords) : ℝ := dirs.foldl (fun a mu => a + (ptmu s anti c mu) ^ 4) 0

/-- `pt4/sqr(pt2)<p4_fr_p22_max`, prop.cpp:1095-1096: false if `pt2` is zero, when the ratio is not a number -/
def passes (s : Coords) (anti : Bool) (p4max : ℝ) (c : ICoords) : Prop :=
  pt2 s anti c ≠ 0 ∧ pt4 s anti c / (pt2 s anti c) ^ 2 < p4max

/-- `get_mirrorized_site_coord`, geometry_lx.hpp:373-378 -/
def mirrorizedCoord (s : Coords) (c : Int) (mu : Dir) (flip : Bool) : Int :=
  ((s mu : Int) + (1 - 2 * (if flip then 1 else 0)) * c).tmod (s mu)

/-- `cmir`, prop.cpp:1100-1102 -/
def cmir (s : Coords) (anti : Bool) (c : ICoords) (imir : Nat) : ICoords :=
  fun mu => mirrorizedCoord s (c mu + (if mu = 0 ∧ imir.testBit 0 = true ∧ anti = true then 1 else 0)) mu (imir.testBit mu.val)

/-- the printed coordinate, prop.cpp:1112-1113 -/
def signedCoord (s : Coords) (c : ICoords) : ICoords := fun mu => if c mu < ((s mu / 2 : Nat) : Int) then c mu else c mu - s mu

/-- the variables the loop updates on one rank: the set of indices, the scattering list, the lines printed on the file -/
structure St where
  filtered : List Nat
  sl : List (Nat × Nat)
  lines : List ICoords

/-- index of a site with non negative coordinates (`glblxOfCoord`, `getLoclxAndRankOfCoords` take an array of `int`) -/
def natc (c : ICoords) : Coords := fun mu => (c mu).toNat

/-- body of the innermost loop, prop.cpp:1104-1126; `fout` tells whether the file of the list is being written -/
def visit (g : Geo) (rank : Nat) (fout : Bool) (st : St) (cm : ICoords) : St :=
  let iglb := lxOfCoord (natc cm) g.L
  if iglb ∈ st.filtered then st
  else
    let lines := if fout then st.lines ++ [signedCoord g.L cm] else st.lines
    let p := getLoclxAndRankOfCoords g (natc cm)
    let sl := if rank = p.1 then st.sl ++ [(p.2, st.filtered.length * g.nranks)] else st.sl
    { filtered := st.filtered ++ [iglb], sl := sl, lines := lines }

open Classical in
/-- the loops of `init_fft_filter_from_range`, prop.cpp:1078-1128; the result carries `nfft_filtered`(=length of `filtered`), `sl` and the file -/
noncomputable def filterFromRange (g : Geo) (anti : Bool) (rank : Nat) (fout : Bool) (ranges : List Range) : St :=
  ranges.foldl (fun st r =>
    (List.range (volOfLx r.width)).foldl (fun st ifilt =>
      if passes g.L anti r.p4max (rangePoint g.L r ifilt) then
        (List.range 16).foldl (fun st imir => visit g rank fout st (cmir g.L anti (rangePoint g.L r ifilt) imir)) st
      else st) st) ⟨[], [], []⟩

/-- the coordinates of one line: `c[mu]=(cmu+glbSize[mu])%glbSize[mu]`, prop.cpp:1187 -/
def wrapLine (s : Coords) (l : ICoords) : ICoords := fun mu => (l mu + s mu).tmod (s mu)

/-- body of the reading loop of `init_fft_filterer_from_file`, prop.cpp:1192-1202 (`insert` does nothing if the element is there) -/
def visitLine (g : Geo) (rank : Nat) (st : St) (l : ICoords) : St :=
  let c := natc (wrapLine g.L l)
  let p := getLoclxAndRankOfCoords g c
  let sl := if rank = p.1 then st.sl ++ [(p.2, st.filtered.length * g.nranks)] else st.sl
  let iglb := lxOfCoord c g.L
  { st with sl := sl, filtered := if iglb ∈ st.filtered then st.filtered else st.filtered ++ [iglb] }

/-- the lines read: four integers at a time, the reading ending when one of the four is missing, prop.cpp:1176-1191 -/
def linesOf : List Int → List ICoords
  | a :: b :: c :: d :: rest => ![a, b, c, d] :: linesOf rest
  | _ => []

/-- `init_fft_filterer_from_file`, prop.cpp:1155-1206 -/
def filterFromFile (g : Geo) (rank : Nat) (file : List Int) : St :=
  (linesOf file).foldl (visitLine g rank) ⟨[], [], []⟩

/-- the integers `master_fprintf` puts on the file, line after line, prop.cpp:1110-1115 -/
def fileOf (lines : List ICoords) : List Int := lines.flatMap (fun l => [l 0, l 1, l 2, l 3])

end Nissa.MomF
