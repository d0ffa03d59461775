import Verif.Stencil.PropsPaths
import Verif.Color.PropsSu3Polar

/-! # Fixing of the Landau and Coulomb gauge

Models `/repo/src/operations/gauge_fixing.cpp:155-929`, with the parameters of `/repo/src/operations/gauge_fixing.hpp:14-180`.

A field is what is stored on the sites of each rank.  What a site reads beyond the border is what `updateHalo` puts there (`mem`).
Exact arithmetic.  `gauge_transform_color` and `find_temporal_gauge_fixing_matr` are only calls to `CRASH`. -/

set_option linter.all false

namespace Nissa.GFix
open Nissa.Lx Nissa.Sten Nissa.Gauge Nissa.Su3f Matrix

noncomputable section

/-- a field on all the ranks -/
abbrev Fld (V : Type) := Nat → Nat → V

/-- what the routine uses of the rest of the program: the grid, the content of memory never written, the order of the reductions, the
Fourier transform of a field (sign, normalisation), the exponential, the function used by the maximal trace projection against the
rounding, the numbers drawn at each sweep -/
structure Env where
  g : Geo
  ji : Nat
  jq : Quad
  jm : M3
  sched : Nat → Nat → List Nat
  fft : Int → Bool → Fld M3 → Fld M3
  expo : M3 → M3
  reuni : M3 → M3
  draw : Nat → Fld ℝ

/-- `method_t`.  `/repo/src/operations/gauge_fixing.hpp:20-21`; `other` is any other value of the enumeration -/
inductive Method
  | overrelax | exponentiate | other

/-- `LC_gauge_fixing_pars_t`: `gauge` is the number of the first direction, 0 for Landau and 1 for Coulomb.
`/repo/src/operations/gauge_fixing.hpp:17-18, 84-102` -/
structure Pars where
  gauge : Nat
  targetPrecision : ℝ
  nmaxIterations : Int
  unitarizeEach : Int
  method : Method
  overrelaxProb : ℝ
  alphaExp : ℝ
  useAdaptativeSearch : Bool
  useGeneralizedCg : Bool
  useFftAcc : Int

/-- `for(int mu=start_mu;mu<NDIM;mu++)` -/
def dirsFrom (start : Nat) : List Dir := dirs.filter (fun mu => start ≤ mu.val)

/-- `compute_Landau_or_Coulomb_functional_der`, given what is read at the site and at the lower neighbours.
`/repo/src/operations/gauge_fixing.cpp:172-187` -/
def functionalDer (start : Nat) (here : Quad) (dw : Dir → Quad) : M3 :=
  (dirsFrom start).foldl (fun out mu => out + here mu + (dw mu mu)ᴴ) 0

/-- the field `locF`.  `/repo/src/operations/gauge_fixing.cpp:200-212` -/
def locFunctional (start : Nat) (conf : Fld Quad) : Fld ℝ := fun rk ivol =>
  (dirsFrom start).foldl (fun F mu => F - su3_real_trace (conf rk ivol mu)) 0

/-- `locF.preciseReduce(F)` or `reduce`: the sum on the sites of the rank in the order of the reduction, then on the ranks -/
def reduceAll (E : Env) (f : Fld ℝ) : ℝ := ∑ rk ∈ Finset.range E.g.nranks, Reduce.reduceNoPreserve (· + ·) (E.sched rk) E.g.locVol (f rk)

/-- `compute_Landau_or_Coulomb_functional` without offset.  `/repo/src/operations/gauge_fixing.cpp:189-224` -/
def functional (E : Env) (start : Nat) (conf : Fld Quad) : ℝ := reduceAll E (locFunctional start conf)

/-- the same with the offset, `locF-=*offsetF`.  `/repo/src/operations/gauge_fixing.cpp:214-219` -/
def functionalOffset (E : Env) (start : Nat) (conf : Fld Quad) (off : Fld ℝ) : ℝ :=
  reduceAll E (fun rk ivol => locFunctional start conf rk ivol - off rk ivol)

/-- what is read of the lower neighbours -/
def dwOf (E : Env) (conf : Fld Quad) (rk ivol : Nat) (mu : Dir) : Quad :=
  let r := coordOfLx rk E.g.R
  mem E.g E.jq conf r (dwT E.g r E.ji ivol mu)

/-- `loc_omega[ivol]`.  `/repo/src/operations/gauge_fixing.cpp:234-251` -/
def locOmega (E : Env) (start : Nat) (conf : Fld Quad) : Fld ℝ := fun rk ivol =>
  let delta := (dirsFrom start).foldl (fun d mu => d - conf rk ivol mu + dwOf E conf rk ivol mu mu) 0
  4 * su3_norm2 (su3_traceless_anti_hermitian_part delta 0)

/-- `compute_Landau_or_Coulomb_gauge_fixing_quality`.  `/repo/src/operations/gauge_fixing.cpp:226-258` -/
def quality (E : Env) (start : Nat) (conf : Fld Quad) : ℝ := reduceAll E (locOmega E start conf) / E.g.glbVol / 3

/-- a field built by a loop in which a site can crash -/
def loopOpt {V : Type} [Inhabited V] (g : Geo) (f : Fld (Option V)) : Option (Fld V) :=
  open Classical in if ∀ rk, rk < g.nranks → ∀ i, i < g.locVol → (f rk i).isSome then some (fun rk i => (f rk i).getD default) else none

/-- parity of a site, `loclx_parity` -/
def parOf (g : Geo) (rk ivol : Nat) : Nat := (loclxParity g (coordOfLx rk g.R) ivol).getD 0

/-- the matrix of the change at a site of the parity considered: maximal trace projection of the dagger of the derivative, squared if
the number drawn is below the probability; `none` is the crash of the projection when it does not converge.
`/repo/src/operations/gauge_fixing.cpp:287-308` -/
def overrelaxSite (E : Env) (start : Nat) (prob : ℝ) (iter : Nat) (conf : Fld Quad) (rk ivol : Nat) : Option M3 :=
  let ref := (functionalDer start (conf rk ivol) (dwOf E conf rk ivol))ᴴ
  (su3_unitarize_maximal_trace_projecting E.reuni ref 5e-15 20000).map fun gr =>
    if E.draw iter rk ivol < prob then gr * gr else gr

/-- one of the two turns of the loop on the parity.  The link written is `fixedConf[b][mu]`, `b` the lower neighbour, and the value is
`g*fixedConf[ivol][mu]*g^+`: so the link `mu` of a site of the other parity receives what was computed at its upper neighbour.
Simplification: when the lower neighbour is on another rank, the value goes through the buffers; here the owner takes directly what was
computed by the rank owning the upper neighbour.  `/repo/src/operations/gauge_fixing.cpp:270-364` -/
def overrelaxHalf (E : Env) (start : Nat) (prob : ℝ) (iter eo : Nat) (s : Fld Quad × Fld M3) : Option (Fld Quad × Fld M3) :=
  (loopOpt E.g (fun rk ivol => if parOf E.g rk ivol = eo then overrelaxSite E start prob iter s.1 rk ivol else some 1)).map fun G =>
    let W : Fld Quad := fun rk ivol mu => G rk ivol * s.1 rk ivol mu * (G rk ivol)ᴴ
    (fun rk ivol mu =>
      let r := coordOfLx rk E.g.R
      if parOf E.g rk ivol ≠ eo then mem E.g E.jq W r (upT E.g r E.ji ivol mu) mu else s.1 rk ivol mu,
     fun rk ivol => if parOf E.g rk ivol = eo then G rk ivol * s.2 rk ivol else s.2 rk ivol)

/-- `Landau_or_Coulomb_gauge_fixing_overrelax`.  `/repo/src/operations/gauge_fixing.cpp:260-365` -/
def overrelax (E : Env) (start : Nat) (prob : ℝ) (iter : Nat) (s : Fld Quad × Fld M3) : Option (Fld Quad × Fld M3) :=
  (overrelaxHalf E start prob iter 0 s).bind (overrelaxHalf E start prob iter 1)

/-- global coordinates of a site, `glbCoordOfLoclx` -/
def coordsOf (g : Geo) (rk i : Nat) : Coords := (glbCoordOfLoclx g (coordOfLx rk g.R) i).getD (fun _ => 0)

/-- the factor of a momentum.  `/repo/src/operations/gauge_fixing.cpp:374-399` -/
def faccFactor (L : Coords) (c : Coords) : ℝ :=
  let den := 4 * dirs.foldl (fun den mu => den + Real.sin (0.5 * (2 * Real.pi * c mu / L mu)) ^ 2) 0
  if 1e-10 < |den| then 16 / den else 16

/-- `Fourier_accelerate_derivative`.  `/repo/src/operations/gauge_fixing.cpp:367-405` -/
def fourierAccelerate (E : Env) (der : Fld M3) : Fld M3 :=
  let der := E.fft (-1) true der
  let der : Fld M3 := fun rk i => faccFactor E.g.L (coordsOf E.g rk i) • der rk i
  E.fft 1 false der

/-- `exp_der_alpha_half`.  `/repo/src/operations/gauge_fixing.cpp:407-423` -/
def expDerAlphaHalf (E : Env) (der : Fld M3) (alpha : ℝ) : Fld M3 := fun rk i => E.expo ((-0.5 * alpha) • der rk i)

/-- `add_current_transformation`.  `/repo/src/operations/gauge_fixing.cpp:425-439` -/
def addCurrent (G fixer : Fld M3) : Fld M3 := fun rk i => G rk i * fixer rk i

/-- the two values of the functional computed by a turn of the search, at `alpha` and `2 alpha`.
`/repo/src/operations/gauge_fixing.cpp:479-506` -/
def trialF (E : Env) (start : Nat) (fixer der : Fld M3) (ori : Fld Quad) (off : Fld ℝ) (alpha : ℝ) : ℝ × ℝ :=
  let G := expDerAlphaHalf E der alpha
  let fixer1 := addCurrent G fixer
  let fixer2 := addCurrent G fixer1
  (functionalOffset E start (gauge_transform_conf E.g E.ji E.jm fixer1 ori) off,
   functionalOffset E start (gauge_transform_conf E.g E.ji E.jm fixer2 ori) off)

/-- the loop of `adapt_alpha`; `T` gives the two values of the functional at `alpha` and `2 alpha`.  Returns whether the search succeeded
and the last `alpha`.  `/repo/src/operations/gauge_fixing.cpp:466-561`; the argument is the number of turns left, 15 at the beginning -/
def adaptLoop (T : ℝ → ℝ × ℝ) : Nat → ℝ → Bool × ℝ
  | 0, alpha => (false, alpha)
  | n + 1, alpha =>
    let F0 : ℝ := 0
    let F1 := (T alpha).1
    let F2 := (T alpha).2
    let b := (4 * F1 - F2 - 3 * F0) / (2 * alpha)
    let a := (F2 - 2 * F1 + F0) / (2 * alpha ^ 2)
    open Classical in
    if a > 1e-14 then
      let vert := -b / (2 * a)
      let relDist := |vert / alpha - 1|
      if |2 * alpha| > |vert| ∧ relDist < 0.05 then (true, vert) else adaptLoop T n vert
    else (false, alpha)

/-- `adapt_alpha`: value of alpha and number of searches skipped.  The fixer is put back (line 573) and the configuration left is
overwritten by the caller: neither is in the result.  `/repo/src/operations/gauge_fixing.cpp:441-576` -/
def adaptAlpha (E : Env) (start : Nat) (fixer der : Fld M3) (alphaDef : ℝ) (ori : Fld Quad) (off : Fld ℝ) (nskipped : Nat) : ℝ × Nat :=
  let r := adaptLoop (trialF E start fixer der ori off) 15 alphaDef
  if r.1 then (r.2, 0) else (alphaDef, nskipped + 1)

/-- the fields kept by the generalised conjugate gradient: previous derivative and direction -/
structure Gcg where
  prevDer : Fld M3
  s : Fld M3

/-- `GCG_improve_gauge_fixer`: the new fields, and whether the method is still in use.
`/repo/src/operations/gauge_fixing.cpp:614-692` -/
def gcgImprove (E : Env) (der : Fld M3) (useGcg : Bool) (iter : Nat) (q : Gcg) : Gcg × Bool :=
  let den := reduceAll E (fun rk i => reTrProdDag (q.prevDer rk i) (q.prevDer rk i))
  open Classical in
  let num := reduceAll E (fun rk i => if den > 1e-6 then reTrProdDag (der rk i) (der rk i - q.prevDer rk i) else reTrProdDag (der rk i) (der rk i))
  let bu : ℝ × Bool :=
    if iter > 1 then
      if |num| < 1e-20 ∨ |den| < 1e-20 then (0, false) else (max 0 (num / den), useGcg)
    else (0, useGcg)
  (⟨der, if iter % 10 = 0 then der else fun rk i => der rk i + bu.1 • q.s rk i⟩, bu.2)

/-- state of the routine -/
structure St where
  conf : Fld Quad
  fixer : Fld M3
  gcg : Gcg
  useAdapt : Bool
  useGcg : Bool
  nskipped : Nat
  iter : Nat
  prec : ℝ
  func : ℝ
  off : Fld ℝ

/-- the derivative of the functional, projected on the algebra.  `/repo/src/operations/gauge_fixing.cpp:721-730` -/
def derOf (E : Env) (start : Nat) (conf : Fld Quad) : Fld M3 := fun rk i =>
  su3_traceless_anti_hermitian_part (functionalDer start (conf rk i) (dwOf E conf rk i)) 0

/-- the direction of the step, and the fields of the method: `/repo/src/operations/gauge_fixing.cpp:715-753` -/
def direction (E : Env) (P : Pars) (s : St) : Fld M3 × Gcg × Bool :=
  let der := derOf E P.gauge s.conf
  let der := if P.useFftAcc > 0 ∨ (s.iter : Int) < -P.useFftAcc then fourierAccelerate E der else der
  let qu := if s.useGcg then gcgImprove E der s.useGcg s.iter s.gcg else (s.gcg, s.useGcg)
  (if qu.2 then qu.1.s else der, qu)

/-- `Landau_or_Coulomb_gauge_fixing_exponentiate`.  `/repo/src/operations/gauge_fixing.cpp:694-786` -/
def exponentiate (E : Env) (P : Pars) (ext : Fld Quad) (s : St) : St :=
  let d := direction E P s
  let v := d.1
  let al := if s.useAdapt then adaptAlpha E P.gauge s.fixer v P.alphaExp ext s.off s.nskipped else (P.alphaExp, s.nskipped)
  let G := expDerAlphaHalf E v al.1
  let fixer := addCurrent G s.fixer
  { s with conf := gauge_transform_conf E.g E.ji E.jm fixer ext, fixer := fixer, gcg := d.2.1, useGcg := d.2.2, nskipped := al.2 }

/-- `check_Landau_or_Coulomb_gauge_fixed`: stores quality, functional and the local functional.
`/repo/src/operations/gauge_fixing.cpp:788-804` -/
def check (E : Env) (P : Pars) (s : St) : St :=
  { s with prec := quality E P.gauge s.conf, func := functional E P.gauge s.conf, off := locFunctional P.gauge s.conf }

/-- a turn of the inner loop: new state and `get_out`; `none` is a crash.  `/repo/src/operations/gauge_fixing.cpp:845-882` -/
def body (E : Env) (P : Pars) (ext : Fld Quad) (s : St) : Option (St × Bool) :=
  let s1 : Option St := match P.method with
    | .exponentiate => some (exponentiate E P ext s)
    | .overrelax => (overrelax E P.gauge P.overrelaxProb s.iter (s.conf, s.fixer)).map fun cf => { s with conf := cf.1, fixer := cf.2 }
    | .other => none
  s1.map fun s =>
    let s := check E P { s with iter := s.iter + 1 }
    open Classical in
    let get_out : Bool := decide (s.prec ≤ P.targetPrecision) || !decide ((s.iter : Int) < P.nmaxIterations) || !decide ((s.iter : Int).tmod P.unitarizeEach = 0)
    let useAdapt : Bool := s.useAdapt && !decide (s.nskipped ≥ 5) && !decide (s.prec ≤ 1e-14)
    ({ s with useAdapt := useAdapt }, get_out)

/-- outcome of a loop with a bounded number of turns -/
inductive Out (A : Type)
  | crash
  | running
  | done (a : A)

/-- the inner `do ... while(not get_out)`.  `/repo/src/operations/gauge_fixing.cpp:844-883` -/
def inner (E : Env) (P : Pars) (ext : Fld Quad) : Nat → St → Out St
  | 0, _ => .running
  | n + 1, s => match body E P ext s with
    | none => .crash
    | some (s, true) => .done s
    | some (s, false) => inner E P ext n s

/-- `su3_unitarize_explicitly_inverting` with the default tolerance: what the loop ends with, for an invertible matrix (it always ends,
`C37_inverting_converges`); on a singular matrix the code produces numbers which are not defined, here `none`.
`/repo/src/new_types/su3_op.hpp:1405-1446` -/
def unitarize (X : M3) : Option M3 :=
  open Classical in if h : X.det ≠ 0 ∧ ∃ V n, invertingLoop 1e-15 n X = some V then some h.2.choose else none

/-- the part of the outer loop after the inner one: new state and `really_get_out`.  `/repo/src/operations/gauge_fixing.cpp:885-900` -/
def finish (E : Env) (P : Pars) (ext : Fld Quad) (s : St) : Option (St × Bool) :=
  (loopOpt E.g (fun rk i => unitarize (s.fixer rk i))).map fun fixer =>
    let s := check E P { s with fixer := fixer, conf := gauge_transform_conf E.g E.ji E.jm fixer ext }
    open Classical in
    (s, decide (s.prec ≤ P.targetPrecision) || !decide ((s.iter : Int) < P.nmaxIterations))

/-- the outer loop, which returns also `really_get_out`; `fuel` bounds the turns of the inner loop.
`/repo/src/operations/gauge_fixing.cpp:841-901` -/
def outer (E : Env) (P : Pars) (ext : Fld Quad) (fuel : Nat) : Nat → St → Out (St × Bool)
  | 0, _ => .running
  | n + 1, s => match inner E P ext fuel s with
    | .crash => .crash
    | .running => .running
    | .done s => match finish E P ext s with
      | none => .crash
      | some (s, true) => .done (s, true)
      | some (s, false) => outer E P ext fuel n s

/-- state at the beginning: identity as transformation, the fields of the conjugate gradient to zero.
`/repo/src/operations/gauge_fixing.cpp:818-840, 588-600` -/
def start (E : Env) (P : Pars) (ext : Fld Quad) : St :=
  check E P ⟨ext, fun _ _ => 1, ⟨fun _ _ => 0, fun _ _ => 0⟩, P.useAdaptativeSearch, P.useGeneralizedCg, 0, 0, 0, 0, fun _ _ => 0⟩

/-- `Landau_or_Coulomb_gauge_fix`: the last state.  The branch with the output equal to the input makes a copy and calls the other
branch.  `/repo/src/operations/gauge_fixing.cpp:806-909`; `fuel` bounds the turns of the loops -/
def fix (E : Env) (P : Pars) (ext : Fld Quad) (fuel : Nat) : Out St :=
  match outer E P ext fuel fuel (start E P ext) with
  | .crash => .crash
  | .running => .running
  | .done (s, really_get_out) => if !really_get_out then .crash else .done s

end

end Nissa.GFix
