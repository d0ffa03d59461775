import Mathlib.Data.Rat.Floor
import Mathlib.Data.List.Basic
import Mathlib.Tactic.DeriveFintype
/-!
Model of the reading of the parameters of the multigrid solvers (file `DDalphaAMG_pars`),
src/base/multiGridParams.cpp and src/base/multiGridParams.hpp, with QUDA.
The text is taken as a list of words, without comments (see Io/Input.lean for words and comments).
-/
set_option linter.all false
namespace Nissa.MgPars

/-- Parameters; `nd` is for the variant with the suffix `_no_deflation`.
(src/base/multiGridParams.cpp:64-100, multiGridParams.hpp:26-135) -/
inductive Par
  | nlevels | smootherIterations | maxMassForDeflation | maxMass | nsetups
  | muFactor (nd : Bool) | blockSize | setupRefreshTol | nEigenvectors | gcrNkrylov | eigMin | eigMax
  | reliableDelta (nd : Bool) | reliableDeltaRefinement (nd : Bool) | coarseSolverTol (nd : Bool)
  | coarseSolverMaxiter (nd : Bool) | smootherTol (nd : Bool) | nuPre (nd : Bool) | nuPost (nd : Bool)
  | omega (nd : Bool)
deriving DecidableEq

/-- A number written in the file. -/
inductive Lit
  | int (n : ℤ)
  | real (x : ℚ)
deriving DecidableEq

/-- A word of the file: name of a parameter, number, any other. -/
inductive Word
  | name (p : Par)
  | num (l : Lit)
  | other
deriving DecidableEq

/-- Shapes of the parameters. -/
inductive Shape
  | one | levels | blocks
deriving DecidableEq

/-- `READ_VAR`, `READ_ARR` or the block sizes. (src/base/multiGridParams.cpp:64-100) -/
def shape : Par → Shape
  | .nsetups => .levels
  | .muFactor _ => .levels
  | .coarseSolverTol _ => .levels
  | .coarseSolverMaxiter _ => .levels
  | .smootherTol _ => .levels
  | .nuPre _ => .levels
  | .nuPost _ => .levels
  | .omega _ => .levels
  | .blockSize => .blocks
  | _ => .one

/-- The parameters read with `read_int`. (src/base/multiGridParams.cpp:64-100) -/
def isInt : Par → Bool
  | .nlevels | .smootherIterations | .nsetups | .blockSize | .nEigenvectors | .gcrNkrylov
  | .coarseSolverMaxiter _ | .nuPre _ | .nuPost _ => true
  | _ => false

/-- Value of a number for a parameter. (src/io/input.cpp, `read_int` and `read_double`; a decimal number
read as an integer is cut at the point) -/
def conv (p : Par) : Lit → ℚ
  | .int n => n
  | .real x => if isInt p then (if 0 ≤ x then (⌊x⌋ : ℚ) else (⌈x⌉ : ℚ)) else x

/-- Order of the directions. (src/geometry/geometry_lx.hpp:200) -/
def scidac : ℕ → ℕ
  | 0 => 0
  | 1 => 3
  | 2 => 2
  | _ => 1

/-- Values of the parameters by place: level for those with one number per level, four times the level plus
direction for the blocks. -/
abbrev St := Par → ℕ → ℚ

/-- Number of levels: the loops do nothing if negative. -/
def nlev (s : St) : ℕ := ⌊s .nlevels 0⌋.toNat

/-- Places filled by the numbers after a name, in order. `setup_refresh_tol` is in the list of parameters
twice. (src/base/multiGridParams.cpp:37-49, 71-84, 86, 91) -/
def places (s : St) (p : Par) : List ℕ :=
  if p = .setupRefreshTol then [0, 0]
  else match shape p with
    | .one => [0]
    | .levels => List.range (nlev s)
    | .blocks => (List.range (nlev s)).flatMap fun l => (List.range 4).map fun d => 4 * l + scidac d

/-- Change of one place. -/
def set (s : St) (p : Par) (i : ℕ) (x : ℚ) : St := fun q j => if q = p ∧ j = i then x else s q j

/-- The loop: `todo` are the places of the parameter in course that still miss their number; `none` is
CRASH. Unknown names are not looked at. At the end of the words one more is asked for, which is an
error if the file does not end with a space or new line (`nl`). (src/base/multiGridParams.cpp:27-108,
src/io/input.cpp:175-245) -/
def run (nl : Bool) : St → Option (Par × List ℕ) → List Word → Option St
  | s, none, [] => if nl then some s else none
  | s, some (p, []), [] => if nl then some s else none
  | _, some (_, _ :: _), [] => none
  | s, todo, w :: ws =>
    match todo with
    | some (p, i :: is) =>
      match w with
      | .num l => run nl (set s p i (conv p l)) (some (p, is)) ws
      | _ => none
    | _ =>
      match w with
      | .name p => run nl s (some (p, places s p)) ws
      | _ => run nl s none ws

/-- Values before: `nlevels` is one when those of the levels are set. (src/base/multiGridParams.hpp:26-92,
125-133; src/base/multiGridParams.cpp:20-22) -/
def dflt : St
  | .nlevels, 0 => 3
  | .smootherIterations, 0 => 4
  | .maxMassForDeflation, 0 => 10 ^ 300
  | .maxMass, 0 => 10 ^ 300
  | .nsetups, i => if i < 1 then 4 else 0
  | .muFactor _, i => if i < 1 then 1 else 0
  | .nuPre _, _ => 0
  | .nuPost _, i => if i < 1 then 7 else 0
  | .coarseSolverTol _, i => [15 / 100, 22 / 100, 46 / 100].getD i 0
  | .coarseSolverMaxiter _, i => [100, 100, 100].getD i 0
  | .smootherTol _, i => [10 / 100, 10 / 100, 15 / 100].getD i 0
  | .omega _, i => [85 / 100, 85 / 100, 85 / 100].getD i 0
  | .setupRefreshTol, 0 => 1000
  | .nEigenvectors, 0 => 100
  | .gcrNkrylov, 0 => 24
  | .eigMin, 0 => 6 / 100
  | .eigMax, 0 => 8
  | .reliableDelta _, 0 => 1 / 100
  | .reliableDeltaRefinement _, 0 => 1 / 10000
  | _, _ => 0

/-- `read_DDalphaAMG_pars`: `file` is `none` if there is no file. (src/base/multiGridParams.cpp:14-112) -/
def readPars (file : Option (List Word × Bool)) : Option St :=
  match file with
  | none => some dflt
  | some (ws, nl) => run nl dflt none ws

/-- Largest number of levels. (src/base/multiGridParams.hpp:13-15) -/
def maxLevels : ℕ := 4
end Nissa.MgPars
