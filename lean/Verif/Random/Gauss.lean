import Verif.Random.Sources
import Verif.Hmc.GaugeForce
import Mathlib.Analysis.SpecialFunctions.Trigonometric.Basic
import Mathlib.Analysis.SpecialFunctions.Log.Basic

/-! # Random numbers which are not uniform

Model of the gaussian numbers, of the numbers in `Z_N`, of the momenta of the HMC and of the random links
(/repo/src/base/random.hpp, /repo/src/base/random.cpp, /repo/src/hmc/momenta/momenta_generation.cpp).  The uniform numbers are those of the
generator of `Ran2` (rational numbers); real numbers stand for `double`. -/

set_option linter.all false

namespace Nissa.Gauss
open Nissa.Lx (Coords Geo Dir)
open Nissa.Ran2 (Gen getUnif drawN)
open Nissa.Su3f (M3)
open Nissa.Gauge (Quad)

noncomputable section

/-- `rnd_get_gauss_complex`, from the two uniform numbers drawn: `/repo/src/base/random.hpp:181-198` -/
def gaussOf (u1 u2 : ℝ) (ave : ℂ) (sig : ℝ) : ℂ :=
  let one_by_sqrt2 : ℝ := 0.707106781186547
  let norm := sig * one_by_sqrt2
  let r := Real.sqrt (-2 * Real.log (1 - u1))
  let q := 2 * Real.pi * u2
  ⟨r * Real.cos q * norm + ave.re, r * Real.sin q * norm + ave.im⟩

/-- `rnd_get_gauss_double`: `/repo/src/base/random.cpp:209-217` -/
def gaussDoubleOf (u1 u2 ave sig : ℝ) : ℝ :=
  let r := Real.sqrt (-2 * Real.log (1 - u1))
  let q := 2 * Real.pi * u2
  r * Real.cos q * sig + ave

/-- `rnd_get_gauss_complex`: the two draws.  `/repo/src/base/random.hpp:181-198` -/
def gaussComplex (ave : ℂ) (sig : ℝ) (g : Gen) : Option (ℂ × Gen) := do
  let (u1, g) ← getUnif g 0 1
  let (u2, g) ← getUnif g 0 1
  some (gaussOf u1 u2 ave sig, g)

/-- `rnd_get_ZN`, from the number drawn in `[0,N)`: `/repo/src/base/random.hpp:170-177` -/
def znOf (u : ℝ) (N : Nat) : ℂ :=
  let k : Int := if 0 ≤ u then ⌊u⌋ else ⌈u⌉
  let arg := 2 * Real.pi * k / N
  ⟨Real.cos arg, Real.sin arg⟩

/-- the matrix of `herm_put_to_gauss` from the eight numbers: `/repo/src/base/random.hpp:313-341` -/
def hermOf (r : Fin 8 → ℝ) : M3 :=
  let one_by_sqrt3 : ℝ := 0.577350269189626
  let two_by_sqrt3 : ℝ := 1.15470053837925
  !![⟨r 2 + one_by_sqrt3 * r 7, 0⟩, ⟨r 0, -r 1⟩, ⟨r 3, -r 4⟩;
     ⟨r 0, r 1⟩, ⟨-r 2 + one_by_sqrt3 * r 7, 0⟩, ⟨r 5, -r 6⟩;
     ⟨r 3, r 4⟩, ⟨r 5, r 6⟩, ⟨-two_by_sqrt3 * r 7, 0⟩]

/-- the eight numbers are the real and imaginary parts of four gaussian ones: `/repo/src/base/random.hpp:316-323` -/
def eight (z : Fin 4 → ℂ) (k : Fin 8) : ℝ :=
  let c := z ⟨k.val / 2, by omega⟩
  if k.val % 2 = 0 then c.re else c.im

/-- `herm_put_to_gauss`: `/repo/src/base/random.hpp:309-341` -/
def herm_put_to_gauss (sigma : ℝ) (g : Gen) : Option (M3 × Gen) := do
  let (l, g) ← drawN (gaussComplex 0 sigma) 4 g
  some (hermOf (eight fun i => l.getD i 0), g)

/-- the four links of a site, one after the other: `/repo/src/hmc/momenta/momenta_generation.cpp:27-28` -/
def siteMomenta (g : Gen) : Option (Quad × Gen) := do
  let (l, g) ← drawN (herm_put_to_gauss 1) 4 g
  some (fun mu => l.getD mu.val 0, g)

/-- State of a rank: generators of the local sites, momenta of the two parities -/
structure MomState where
  gen : Nat → Option Gen
  H : Nat → Nat → Quad

/-- body of the loop of `generate_hmc_momenta`; `loclx_of_loceo` is the table of the rank.
`/repo/src/hmc/momenta/momenta_generation.cpp:20-29` -/
def momStep (loclx_of_loceo : Nat → Nat → Nat) (par : Nat) (s : MomState) (ieo : Nat) : Option MomState := do
  let g ← s.gen (loclx_of_loceo par ieo)
  let (q, g) ← siteMomenta g
  some ⟨Function.update s.gen (loclx_of_loceo par ieo) (some g), fun p e => if p = par ∧ e = ieo then q else s.H p e⟩

/-- `generate_hmc_momenta`; the sites of the parity `par` are visited in the order `sched par`.
`/repo/src/hmc/momenta/momenta_generation.cpp:16-33` -/
def generate_hmc_momenta (loclx_of_loceo : Nat → Nat → Nat) (sched : Nat → List Nat) (s : MomState) : Option MomState :=
  [0, 1].foldlM (fun s par => (sched par).foldlM (momStep loclx_of_loceo par) s) s

/-- `color_put_to_gauss`: `/repo/src/base/random.cpp:479-483` -/
def color_put_to_gauss (sigma : ℝ) (g : Gen) : Option (List ℂ × Gen) := drawN (gaussComplex 0 sigma) 3 g

/-! ### Random links -/

/-- the element of the SU(2) subgroup of rows `i1`, `i2`; `c` are the three coefficients in `[0,1)`.
`/repo/src/base/random.hpp:233-259` -/
def subgroupOf (i1 i2 : Fin 3) (c : Fin 3 → ℝ) : M3 :=
  let u0 := c 0 * 2 - 1
  let alpha := Real.sqrt (1 - u0 * u0)
  let phi := c 1 * 2 * Real.pi
  let costheta := c 2 * 2 - 1
  let sintheta := Real.sqrt (1 - costheta * costheta)
  let u3 := alpha * costheta
  let u1 := alpha * sintheta * Real.cos phi
  let u2 := alpha * sintheta * Real.sin phi
  let u_l : M3 := 1
  let u_l := u_l.updateRow i1 (Function.update (u_l i1) i1 ⟨u0, u3⟩)
  let u_l := u_l.updateRow i1 (Function.update (u_l i1) i2 ⟨u2, u1⟩)
  let u_l := u_l.updateRow i2 (Function.update (u_l i2) i1 ⟨-u2, u1⟩)
  u_l.updateRow i2 (Function.update (u_l i2) i2 ⟨u0, -u3⟩)

/-- `su3_put_to_rnd` from the nine coefficients in `[0,1)` (three for each of the subgroups 01, 02, 12): `/repo/src/base/random.hpp:224-265`;
the version with a generator, `:268-305`, draws the same numbers in the same order, already scaled -/
def su3_put_to_rnd (c : Fin 3 → Fin 3 → ℝ) : M3 :=
  let u_ran : M3 := 1
  let u_ran := subgroupOf 0 1 (c 0) * u_ran
  let u_ran := subgroupOf 0 2 (c 1) * u_ran
  subgroupOf 1 2 (c 2) * u_ran

end

end Nissa.Gauss
