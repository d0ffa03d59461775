/-
Model of the measurement of the topological charge: /repo/src/measures/gauge/topological_charge.cpp:107-300 (correlator, its file, loop),
/repo/src/operations/remap_vector.hpp:160-217 (order of the points of the file), /repo/src/operations/smearing/smooth.{hpp:153-157,cpp:43-70}
(when to measure).
-/
import Verif.Operations.Fft
set_option linter.all false

namespace Nissa.Topo
open Nissa.Lx Nissa.A2A Nissa.Layouts Nissa.Fft

/-! ### Correlator -/

/-- directions of the transform back, topological_charge.cpp:134: `timeMomRep?onlyDir[0]:allDirs` -/
def backDirs (timeMomRep : Bool) (mu : Dir) : Bool := if timeMomRep then mu = 0 else true

/-- compute_topo_corr, topological_charge.cpp:107-143: to complex, transform with sign +1 normalised, product of each element with itself
(safe_complex_prod: no conjugation), transform with sign -1 not normalised, real part. `charge` is overwritten. -/
def ComputeTopoCorr (g : Geo) (X : Nat → Nat → Coords) (timeMomRep : Bool) (charge charge' : Nat → Nat → ℝ) : Prop :=
  ∃ f1 f2 : Nat → Nat → Site 1,
    Fft4d g X (fun _ => true) (1 : Int) true (fun r i _ => (charge r i : ℂ)) f1 ∧
    Fft4d g X (backDirs timeMomRep) (-1 : Int) false (fun r i icpp => f1 r i icpp * f1 r i icpp) f2 ∧
    charge' = fun r i => (f2 r i 0).re

/-! ### Order of the points in the file -/

/-- subcube_size, remap_vector.hpp:167-168. Subtraction of `Nat`: right if the side is at least 2. -/
def subSize (L : Coords) (mu : Dir) (b : Nat) : Nat := if b = 0 then L mu / 2 + 1 else L mu / 2 - 1

/-- the loop on the directions, remap_vector.hpp:165-178: index of the subcube and of the element in the subcube -/
def subcubeOf (L c : Coords) : Nat × Nat :=
  dirs.foldl (fun st mu =>
    let b := if c mu ≥ subSize L mu 0 then 1 else 0
    (st.1 * 2 + b, st.2 * subSize L mu b + (c mu - b * subSize L mu 0))) (0, 0)

/-- volume of a subcube, remap_vector.hpp:186-191 -/
def subcubeVol (L : Coords) (isubcube : Nat) : Nat :=
  dirs.foldl (fun vol mu => vol * subSize L mu (coordOfLx isubcube (fun _ => 2) mu)) 1

/-- the index `tmp`, remap_vector.hpp:180-196: the volumes of the previous subcubes, plus the index in the subcube -/
def topoPos (L c : Coords) : Nat :=
  (subcubeOf L c).2 + (List.range (subcubeOf L c).1).foldl (fun v isubcube => v + subcubeVol L isubcube) 0

/-- index_to_topo_corr_remapping, remap_vector.hpp:160-207; `X rank iloc` is `glbCoordOfLoclx[iloc]` on the rank -/
def topoIndex (g : Geo) (X : Nat → Nat → Coords) (rank iloc : Nat) : Nat × Nat :=
  (topoPos g.L (X rank iloc) / g.locVol, topoPos g.L (X rank iloc) % g.locVol)

/-! ### File of the correlators -/

/-- what can be in eight bytes of the file -/
inductive Cell
  | int (i : Int)
  | dbl (x : ℝ)

/-- glbSextinantVolume, topological_charge.cpp:189-191 -/
def sextVol (L : Coords) : Nat := dirs.foldl (fun v mu => v * (L mu / 2 + 1)) 1

/-- locSextinantVolume, topological_charge.cpp:195-196 -/
def locSext (g : Geo) : Nat := (sextVol g.L + (g.nranks - 1)) / g.nranks

/-- istart, topological_charge.cpp:199 -/
def istart (g : Geo) (rank : Nat) : Nat := min (sextVol g.L) (locSext g * rank)

/-- iend, topological_charge.cpp:200 -/
def iend (g : Geo) (rank : Nat) : Nat := min (sextVol g.L) (istart g rank + locSext g)

/-- fwrite of the first `n` elements of `v` at the position `at_` of the file -/
def fwrite (file : Nat → Option Cell) (at_ n : Nat) (v : Nat → Cell) : Nat → Option Cell :=
  fun w => if at_ ≤ w ∧ w < at_ + n then some (v (w - at_)) else file w

/-- the header, topological_charge.cpp:173-185, written by the master rank: trajectory, charge, number of smoothing steps, eight bytes each -/
def header (itraj nSmooth : Int) (top : ℝ) (i : Nat) : Cell := if i = 0 then .int itraj else if i = 1 then .dbl top else .int nSmooth

/-- storeTopoCorr after the remapping, topological_charge.cpp:171-237, on a little endian machine: `order` is the order in which the ranks
happen to write; each writes the first `iend-istart` elements of its memory at `istart`, after the header. `base` is the position of all the
ranks in the file at the beginning. -/
def storeData (g : Geo) (order : List Nat) (base : Nat) (itraj nSmooth : Int) (top : ℝ) (corr : Nat → Nat → ℝ) (file : Nat → Option Cell) : Nat → Option Cell :=
  order.foldl (fun file rank =>
    let file := if rank = 0 then fwrite file base 3 (header itraj nSmooth top) else file
    let ori := base + 3
    if iend g rank - istart g rank ≠ 0 then fwrite file (ori + istart g rank) (iend g rank - istart g rank) (fun i => .dbl (corr rank i)) else file) file

/-- storeTopoCorr, topological_charge.cpp:146-238: the remapping is done in place. The result is the file, and the position reached. -/
def StoreTopoCorr (g : Geo) (X : Nat → Nat → Coords) (base : Nat) (itraj nSmooth : Int) (top : ℝ) (corr : Nat → Nat → ℝ) (file : Nat → Option Cell)
    (file' : Nat → Option Cell) (base' : Nat) : Prop :=
  ∃ junk junk' order worder temp, (∀ r, r < g.nranks → (order r).Perm (List.range g.locVol)) ∧ worder.Perm (List.range g.nranks) ∧
    RunsTo g.nranks (remapList g.nranks (fun _ => g.locVol) (topoIndex g X)) junk junk' order corr corr temp ∧
    file' = storeData g worder base itraj nSmooth top temp file ∧ base' = base + 3 + sextVol g.L

/-! ### Measurement loop -/

/-- next_nsmooth_meas, smooth.hpp:154-157: integer division truncates -/
def nextMeas (m n : Int) : Int := Int.tdiv (n + m) m * m

/-- the while at smooth.cpp:59-66, with `step` the smoothing of one step -/
inductive SmoothTo {Conf : Type} (step : Conf → Conf) (next : Int) : Conf → Int → Conf → Int → Prop
  | stop (c n) : ¬ n < next → SmoothTo step next c n c n
  | more (c n c' n') : n < next → SmoothTo step next (step c) (n + 1) c' n' → SmoothTo step next c n c' n'

/-- the do-while of measure_topology_lx_conf, topological_charge.cpp:270-295, with smooth_lx_conf_until_next_meas, smooth.cpp:43-69: the
list of number of steps and configuration at each measurement. `m` is meas_each_nsmooth, `N` is nsmooth(). A division by zero does not end. -/
inductive MeasLoop {Conf : Type} (step : Conf → Conf) (m N : Int) : Conf → Int → List (Int × Conf) → Prop
  | last (c n) : m ≠ 0 → nextMeas m n > N → MeasLoop step m N c n [(n, c)]
  | again (c n c' n' l) : m ≠ 0 → ¬ nextMeas m n > N → SmoothTo step (nextMeas m n) c n c' n' → MeasLoop step m N c' n' l →
      MeasLoop step m N c n ((n, c) :: l)

/-- whether the correlators are computed, topological_charge.cpp:287: `measCorr and nSmooth%measCorr==0` -/
def corrDue (measCorr n : Int) : Bool := measCorr ≠ 0 && Int.tmod n measCorr = 0

/-- the lines of the output file, topological_charge.cpp:284, with the charge and the plaquette of each measured configuration -/
def outLines {Conf : Type} (charge plaq : Conf → ℝ) (iconf : Int) (l : List (Int × Conf)) : List (Int × Int × ℝ × ℝ) :=
  l.map (fun p => (iconf, p.1, charge p.2, plaq p.2))

/-- the records written in the file of the correlators along the loop, topological_charge.cpp:287-291; `q c` is the charge of each local
site of all the ranks, `charge` its sum -/
inductive CorrFile {Conf : Type} (g : Geo) (X : Nat → Nat → Coords) (q : Conf → Nat → Nat → ℝ) (charge : Conf → ℝ) (measCorr iconf : Int) (timeMomRep : Bool) :
    List (Int × Conf) → (Nat → Option Cell) → Nat → (Nat → Option Cell) → Nat → Prop
  | nil (file base) : CorrFile g X q charge measCorr iconf timeMomRep [] file base file base
  | skip (n c l file base file' base') : corrDue measCorr n = false → CorrFile g X q charge measCorr iconf timeMomRep l file base file' base' →
      CorrFile g X q charge measCorr iconf timeMomRep ((n, c) :: l) file base file' base'
  | store (n c l corr file base file1 base1 file' base') : corrDue measCorr n = true → ComputeTopoCorr g X timeMomRep (q c) corr →
      StoreTopoCorr g X base iconf n (charge c) corr file file1 base1 → CorrFile g X q charge measCorr iconf timeMomRep l file1 base1 file' base' →
      CorrFile g X q charge measCorr iconf timeMomRep ((n, c) :: l) file base file' base'

end Nissa.Topo
