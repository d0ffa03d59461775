import Verif.Operations.PropsGaugeFix5
import Verif.Random.PropsGauss3

/-! # The tool landau: fixing of the gauge of a configuration, with the profile of the straight lines

Models `/repo/tools/conf_transform/gaugefix/landau.cpp:5-114`, with `perform_random_gauge_transform`
(`/repo/src/operations/gauge_fixing.cpp:889-908`), `gaugeFromTag` and the default parameters
(`/repo/src/operations/gauge_fixing.hpp:42-53, 174-186`).

The reading of the input file is that of C71, of the configuration that of C73, the draw of the coefficients of the random matrices that of C34
and C58: here they are given.  What is printed is the number passed to the print.  Exact arithmetic. -/

set_option linter.all false

namespace Nissa.LandauTool
open Nissa.Lx Nissa.Sten Nissa.Gauge Nissa.Su3f Nissa.GFix Nissa.Gauss Matrix

noncomputable section

/-- `gaugeFromTag`; `none` is the call to `CRASH`.  `/repo/src/operations/gauge_fixing.hpp:42-53` -/
def gaugeFromTag (tag : String) : Option Nat :=
  if tag = "Landau" then some 0 else if tag = "Coulomb" then some 1 else none

/-- what is read from the input file.  `/repo/tools/conf_transform/gaugefix/landau.cpp:13-46` -/
structure Input where
  gauge : String
  precision : ℝ
  alpha : ℝ
  nMaxIters : Int
  useFftAcc : Int
  useAdaptativeSearch : Int
  useGeneralizedCG : Int
  preliminaryRandomGaugeTransformation : Int
  computeProfile : Int

/-- the parameters of the fixing: what is not read keeps the default value.  `/repo/tools/conf_transform/gaugefix/landau.cpp:24-33`,
`/repo/src/operations/gauge_fixing.hpp:56-82, 174-186` -/
def parsOf (I : Input) (gauge : Nat) : Pars where
  gauge := gauge
  targetPrecision := I.precision
  nmaxIterations := I.nMaxIters
  unitarizeEach := 100
  method := .exponentiate
  overrelaxProb := 0.9
  alphaExp := I.alpha
  useAdaptativeSearch := I.useAdaptativeSearch ≠ 0
  useGeneralizedCg := I.useGeneralizedCG ≠ 0
  useFftAcc := I.useFftAcc

/-- `perform_random_gauge_transform`, the coefficients of the random matrices being given.
`/repo/src/operations/gauge_fixing.cpp:889-908` -/
def perform_random_gauge_transform (E : Env) (coeffs : Fld (Fin 3 → Fin 3 → ℝ)) (conf : Fld Quad) : Fld Quad :=
  let fixm : Fld M3 := fun rk ivol => su3_put_to_rnd (coeffs rk ivol)
  gauge_transform_conf E.g E.ji E.jm fixm conf

/-- one lengthening of the lines: `tmp[iVol]=fixedConf[iVol][mu]*path[loclxNeighup[iVol][mu]]`, then `path=tmp`.
`/repo/tools/conf_transform/gaugefix/landau.cpp:94-106` -/
def lengthen (E : Env) (conf : Fld Quad) (mu : Dir) (path : Fld M3) : Fld M3 := fun rk iVol =>
  let r := coordOfLx rk E.g.R
  conf rk iVol mu * mem E.g E.jm path r (upT E.g r E.ji iVol mu)

/-- `t[iVol]=su3_real_trace(path[iVol])`, its sum over the lattice, divided by the volume.
`/repo/tools/conf_transform/gaugefix/landau.cpp:80-90` -/
def avgTrace (E : Env) (path : Fld M3) : ℝ :=
  reduceAll E (fun rk iVol => (path rk iVol 0 0).re + (path rk iVol 1 1).re + (path rk iVol 2 2).re) / E.g.glbVol

/-- the loop over `x`: lines `mu x value` of the file, from `x` on for `n` turns.  `/repo/tools/conf_transform/gaugefix/landau.cpp:78-107` -/
def profileLoop (E : Env) (conf : Fld Quad) (mu : Dir) : Nat → Nat → Fld M3 → List (Dir × Nat × ℝ)
  | 0, _, _ => []
  | n + 1, x, path => (mu, x, avgTrace E path) :: profileLoop E conf mu n (x + 1) (lengthen E conf mu path)

/-- the profile, for each direction up to half of the lattice.  `/repo/tools/conf_transform/gaugefix/landau.cpp:66-112` -/
def profile (E : Env) (conf : Fld Quad) : List (Dir × Nat × ℝ) :=
  dirs.flatMap fun mu => profileLoop E conf mu (E.g.L mu / 2 + 1) 0 (fun _ _ => 1)

/-- what the tool leaves: the configuration written, the two plaquettes printed, the file of the profile if asked -/
structure Result where
  written : Fld Quad
  before : ℝ
  after : ℝ
  profile : Option (List (Dir × Nat × ℝ))

/-- the plaquette printed -/
def plaquette (E : Env) (conf : Fld Quad) : ℝ := average_plaquette_lx_conf E.g E.ji E.jq E.sched conf

/-- `inMain`: the tool on the configuration read from the file; `fuel` bounds the turns of the loops of the fixing.
`/repo/tools/conf_transform/gaugefix/landau.cpp:5-114` -/
def landau (E : Env) (I : Input) (coeffs : Fld (Fin 3 → Fin 3 → ℝ)) (read : Fld Quad) (fuel : Nat) : Out Result :=
  match gaugeFromTag I.gauge with
  | none => .crash
  | some gauge =>
    let conf := if I.preliminaryRandomGaugeTransformation ≠ 0 then perform_random_gauge_transform E coeffs read else read
    match fix E (parsOf I gauge) conf fuel with
    | .crash => .crash
    | .running => .running
    | .done s =>
      .done ⟨s.conf, plaquette E conf, plaquette E s.conf, if I.computeProfile ≠ 0 then some (profile E s.conf) else none⟩

end

end Nissa.LandauTool
