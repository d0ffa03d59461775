import Mathlib.Data.Rat.Defs
import Mathlib.Data.List.Basic
import Mathlib.Logic.Function.Basic
/-!
Model of the jackknife tool tools/clusterize.cpp.
The arithmetic of doubles is that of ℚ, with `none` for the result of a division by zero (NaN or
infinite). The numbers of the command line are natural.
-/
set_option linter.all false
namespace Nissa.Clust

/-- A line of an input file: the title looked for (equal to `line_to_find`), two numbers, blank, or any
other text. (tools/clusterize.cpp:128-137. Simplified: `fscanf` could also take the two numbers from two
lines.) -/
inductive Line
  | mark
  | nums (re im : ℚ)
  | blank
  | other
deriving DecidableEq

/-- A double: `none` is the result of a division by zero. -/
abbrev Num := Option ℚ

/-- Division of doubles. -/
def fdiv (a b : ℚ) : Num := if b = 0 then none else some (a / b)

/-- Number of lines equal to the title. (tools/clusterize.cpp:12-33, `count_corr`) -/
def countCorr : List Line → ℕ
  | [] => 0
  | l :: f => if l = .mark then countCorr f + 1 else countCorr f

/-- Lines after the first title. (tools/clusterize.cpp:127-130) -/
def skipTo : List Line → List Line
  | [] => []
  | l :: f => if l = .mark then f else skipTo f

/-- Reading of `n` couples of numbers: error at the first line that is not one.
(tools/clusterize.cpp:132-141; blank lines are skipped by `fscanf`) -/
def readT : ℕ → List Line → Option (List (ℚ × ℚ) × List Line)
  | 0, f => some ([], f)
  | _ + 1, [] => none
  | n + 1, l :: f =>
    match l with
    | .blank => readT (n + 1) f
    | .nums a b => (readT n f).map fun r => ((a, b) :: r.1, r.2)
    | _ => none

/-- Reading of the correlators of a file. (tools/clusterize.cpp:125-142) -/
def readCorrs (T : ℕ) : ℕ → List Line → Option (List (List (ℚ × ℚ)))
  | 0, _ => some []
  | n + 1, f =>
    match readT T (skipTo f) with
    | none => none
    | some (v, rest) => (readCorrs T n rest).map fun r => v :: r

/-- First configuration from number `targ` with a file; error if one is missing at the end of the
range or after it. `left` bounds the turns that remain. (tools/clusterize.cpp:105-121) -/
def nextFrom {α : Type} (files : ℕ → Option α) (teo : ℕ) : ℕ → ℕ → Option (ℕ × α)
  | left, targ =>
    match files targ with
    | some f => some (targ, f)
    | none =>
      if teo ≤ targ + 1 then none
      else match left with
        | 0 => none
        | left + 1 => nextFrom files teo left (targ + 1)

/-- The search, with all the turns it can need. (tools/clusterize.cpp:105-121) -/
def nextConf {α : Type} (files : ℕ → Option α) (teo targ : ℕ) : Option (ℕ × α) :=
  nextFrom files teo (teo - targ) targ

/-- Loading of `n` configurations from number `targ`, with the numbers of those used.
(tools/clusterize.cpp:97-146) -/
def loadAll (files : ℕ → Option (List Line)) (teo T ncorr : ℕ) :
    ℕ → ℕ → Option (List (ℕ × List (List (ℚ × ℚ))))
  | 0, _ => some []
  | n + 1, targ =>
    match nextConf files teo targ with
    | none => none
    | some (u, f) =>
      match readCorrs T ncorr f with
      | none => none
      | some d => (loadAll files teo T ncorr n (u + 1)).map fun r => (u, d) :: r

/-- Sums of the clusters. (tools/clusterize.cpp:163-166) -/
def clusters (cs n : ℕ) (x : ℕ → ℚ) : ℕ → ℚ :=
  (List.range n).foldl (fun c i => Function.update c (i / cs) (c (i / cs) + x i)) fun _ => 0

/-- Sum of all the clusters, accumulated in the place after the last. (tools/clusterize.cpp:167) -/
def total (nj : ℕ) (c : ℕ → ℚ) : ℚ := (List.range nj).foldl (fun s j => s + c j) (c nj)

/-- The `nj` jackknives and the average. (tools/clusterize.cpp:168-169) -/
def jack (nj cs n : ℕ) (x : ℕ → ℚ) : List Num :=
  let c := clusters cs n x
  let tot := total nj c
  ((List.range nj).map fun j => fdiv (tot - c j) ((n - n / nj : ℕ) : ℚ)) ++ [fdiv tot n]

/-- Real or imaginary part `ri` of the correlator `icorr` at time `t` of configuration `i` of those
loaded. (tools/clusterize.cpp:87-95, 136) -/
def datum (ld : List (ℕ × List (List (ℚ × ℚ)))) (icorr ri t i : ℕ) : ℚ :=
  let v := (((ld.getD i (0, [])).2.getD icorr []).getD t (0, 0))
  if ri = 0 then v.1 else v.2

/-- The file written for the correlator `icorr`. (tools/clusterize.cpp:157-176) -/
def block (ld : List (ℕ × List (List (ℚ × ℚ)))) (mode T nj cs n icorr : ℕ) : List Num :=
  (List.range (if mode = 0 then 2 else 1)).flatMap fun ri =>
    (List.range T).flatMap fun t => jack nj cs n (datum ld icorr ri t)

/-- The tool: `none` when it stops with an error. `files i` is the file of configuration
`base_gauge+i`. (tools/clusterize.cpp:63-181; a number of jackknives zero is a division by zero, line 75) -/
def clusterize (files : ℕ → Option (List Line)) (teo nj T mode : ℕ) : Option (List Num) :=
  if nj = 0 then none
  else
    let cs := teo / nj
    let n := cs * nj
    match files 0 with
    | none => none
    | some f0 =>
      let ncorr := countCorr f0
      (loadAll files teo T ncorr n 0).map fun ld =>
        (List.range ncorr).flatMap fun icorr => block ld mode T nj cs n icorr
end Nissa.Clust
