import Verif.Tools.Cluster
/-!
Model of the jackknife tool tools/clusterize2.cpp. As for clusterize, the arithmetic is that of ℚ with
`none` for the result of a division by zero. Not modelled: the count of correlators in the first file
(`count_corr`), whose results `ncombo` and `ncorr_type` are parameters, names of files, overflows.
-/
set_option linter.all false
namespace Nissa.Clust

/-- A line of an input file: starting with a title, with spaces only, empty, with numbers (for the
layout in use) or any other text. (tools/clusterize2.cpp:158-200) -/
inductive Line2
  | head
  | spaces
  | empty
  | nums (re im : ℚ)
  | other
deriving DecidableEq

/-- Parameters of the run. `new` is `UseNewContractionLayout`. (tools/clusterize2.cpp:14-54) -/
structure Pars where
  T : ℕ
  ncombo : ℕ
  ntype : ℕ
  teo : ℕ
  ncopies : ℕ
  nj : ℕ
  new : Bool

/-- Numbers per time: one for the new layout, two for the old one. (tools/clusterize2.cpp:45) -/
def Pars.reim (p : Pars) : ℕ := if p.new then 1 else 2

/-- Size of a cluster and number of configurations. (tools/clusterize2.cpp:51-52) -/
def Pars.cs (p : Pars) : ℕ := p.teo / p.nj
def Pars.nconfs (p : Pars) : ℕ := p.cs * p.nj

/-- Size of `data`. (tools/clusterize2.cpp:121-124) -/
def Pars.size (p : Pars) : ℕ := p.ncombo * (p.ntype * p.reim * p.T * (p.nj + 1))

/-- Lines from the first that is neither a title nor blank. (tools/clusterize2.cpp:158-169) -/
def toCorr : List Line2 → List Line2
  | [] => []
  | l :: f => if l = .head ∨ l = .spaces ∨ l = .empty then toCorr f else l :: f

/-- Reading of `n` lines of numbers, skipping blank ones. (tools/clusterize2.cpp:171-201) -/
def readLines : ℕ → List Line2 → Option (List (ℚ × ℚ) × List Line2)
  | 0, f => some ([], f)
  | _ + 1, [] => none
  | n + 1, l :: f =>
    match l with
    | .spaces => readLines (n + 1) f
    | .empty => readLines (n + 1) f
    | .nums a b => (readLines n f).map fun r => ((a, b) :: r.1, r.2)
    | _ => none

/-- Reading of `n` correlators, then up to the end of the file, that must have only empty lines.
(tools/clusterize2.cpp:155-219; the times are at least one) -/
def readFile (T : ℕ) : ℕ → List Line2 → Option (List (ℚ × ℚ))
  | 0, f => if f.all fun l => l = .empty then some [] else none
  | n + 1, f =>
    match readLines T (toCorr f) with
    | none => none
    | some (v, rest) => (readFile T n rest).map fun r => v ++ r

/-- Place of a number in `data`. (tools/clusterize2.cpp:203-204) -/
def Pars.idx (p : Pars) (iclust t ri icombo itype : ℕ) : ℕ :=
  iclust + (p.nj + 1) * (t + p.T * (ri + p.reim * (icombo + p.ncombo * itype)))

/-- The additions to `data` for one configuration. With the new layout the second number is
not read, and what it had before, here `junk`, is added. (tools/clusterize2.cpp:155-213) -/
def Pars.adds (p : Pars) (junk : ℚ) (iconf : ℕ) (v : List (ℚ × ℚ)) : List (ℕ × ℚ) :=
  (List.range p.ncombo).flatMap fun icombo =>
    (List.range p.ntype).flatMap fun itype =>
      (List.range p.T).flatMap fun t =>
        let w := v.getD ((icombo * p.ntype + itype) * p.T + t) (0, 0)
        [(p.idx (iconf / p.cs) t 0 icombo itype, w.1),
         (p.idx (iconf / p.cs) t 1 icombo itype, if p.new then junk else w.2)]

/-- `data` after additions, from zero. (tools/clusterize2.cpp:207-208, 265) -/
def accumulate (l : List (ℕ × ℚ)) : ℕ → ℚ :=
  l.foldl (fun d a => Function.update d a.1 (d a.1 + a.2)) fun _ => 0

/-- The first `n` configurations with a file, from number `targ`. (tools/clusterize2.cpp:238-261; for
`confs_each` positive) -/
def pick {α : Type} (files : ℕ → Option α) (teo : ℕ) : ℕ → ℕ → Option (List (ℕ × α))
  | 0, _ => some []
  | n + 1, targ =>
    match nextConf files teo targ with
    | none => none
    | some (u, f) => (pick files teo n (u + 1)).map fun r => (u, f) :: r

/-- Reading of the files chosen. -/
def readAll (p : Pars) : List (ℕ × List Line2) → Option (List (List (ℚ × ℚ)))
  | [] => some []
  | (_, f) :: l =>
    match readFile p.T (p.ncombo * p.ntype) f with
    | none => none
    | some v => (readAll p l).map fun r => v :: r

/-- The numbers of all the copies: copy, then configuration. (tools/clusterize2.cpp:238-272) -/
def loadCopies (p : Pars) (files : ℕ → ℕ → Option (List Line2)) : ℕ → Option (List (List (List (ℚ × ℚ))))
  | 0 => some []
  | n + 1 =>
    match loadCopies p files n with
    | none => none
    | some r =>
      match pick (files n) p.teo p.nconfs 0 with
      | none => none
      | some us => (readAll p us).map fun v => r ++ [v]

/-- All the additions, in order of configuration and copy. (tools/clusterize2.cpp:267-272; the clusters
are shared among threads) -/
def Pars.allAdds (p : Pars) (junk : ℚ) (v : ℕ → ℕ → List (ℚ × ℚ)) : List (ℕ × ℚ) :=
  (List.range p.nj).flatMap fun ijack =>
    (List.range p.cs).flatMap fun i =>
      (List.range p.ncopies).flatMap fun icopy => p.adds junk (ijack * p.cs + i) (v icopy (ijack * p.cs + i))

/-- Jackknives in place of the clusters, from the place `o`. (tools/clusterize2.cpp:274-283) -/
def Pars.jack2 (p : Pars) (d : ℕ → ℚ) (o : ℕ) : List Num :=
  let tot := (List.range p.nj).foldl (fun s j => s + d (o + j)) (d (o + p.nj))
  ((List.range p.nj).map fun j =>
    (fdiv (tot - d (o + j)) ((p.nconfs - p.nconfs / p.nj : ℕ) : ℚ)).bind fun x => fdiv x p.ncopies)
  ++ [fdiv tot ((p.nconfs * p.ncopies : ℕ) : ℚ)]

/-- The file written for the correlators of a type. (tools/clusterize2.cpp:293-307) -/
def Pars.out (p : Pars) (d : ℕ → ℚ) (itype : ℕ) : List Num :=
  (List.range (p.ncombo * p.reim * p.T)).flatMap fun i =>
    p.jack2 d ((p.ncombo * p.reim * p.T * itype + i) * (p.nj + 1))

/-- The tool: the files written for the types, `none` when it stops with an error. `files c i` is the file of
the copy `c` of the configuration `i` of those asked for. (tools/clusterize2.cpp:224-318) -/
def clusterize2 (p : Pars) (junk : ℚ) (files : ℕ → ℕ → Option (List Line2)) : Option (List (List Num)) :=
  if p.nj = 0 then none
  else (loadCopies p files p.ncopies).map fun v =>
    (List.range p.ntype).map fun itype =>
      p.out (accumulate (p.allAdds junk fun c i => (v.getD c []).getD i [])) itype
end Nissa.Clust
