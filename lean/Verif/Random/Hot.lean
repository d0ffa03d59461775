import Verif.Random.Gauss

/-! # Random configuration

Model of `generate_hot_eo_conf` (`/repo/src/operations/gaugeconf.cpp:199-217`) and of the version of `su3_put_to_rnd` which takes the generator
(`/repo/src/base/random.hpp:273-306`).  The three numbers of a subgroup are drawn in the intervals (-1,1), (0,2*pi), (-1,1): in exact arithmetic they are
`2*u-1`, `2*pi*u`, `2*u-1` for the number `u` of the unit interval (`rnd_get_unif`, `/repo/src/base/random.cpp:164-191`), those of the version with the coefficients. -/

set_option linter.all false

namespace Nissa.Gauss
open Nissa.Ran2 (Gen getUnif drawN)
open Nissa.Su3f (M3)
open Nissa.Gauge (Quad)

noncomputable section

/-- `su3_put_to_rnd` with the generator: three numbers for each of the three subgroups.  `/repo/src/base/random.hpp:273-306` -/
def rndLink (g : Gen) : Option (M3 × Gen) := do
  let (l, g) ← drawN (fun g => getUnif g 0 1) 9 g
  some (su3_put_to_rnd (fun i j => ((l.getD (3 * i.val + j.val) 0 : ℚ) : ℝ)), g)

/-- the four links of a site, one after the other.  `/repo/src/operations/gaugeconf.cpp:212-213` -/
def hotSite (g : Gen) : Option (Quad × Gen) := do
  let (l, g) ← drawN rndLink 4 g
  some (fun mu => l.getD mu.val 1, g)

/-- body of the loop; `loclx_of_loceo` is the table of the rank.  `/repo/src/operations/gaugeconf.cpp:206-214` -/
def hotStep (loclx_of_loceo : Nat → Nat → Nat) (par : Nat) (s : MomState) (ieo : Nat) : Option MomState := do
  let g ← s.gen (loclx_of_loceo par ieo)
  let (q, g) ← hotSite g
  some ⟨Function.update s.gen (loclx_of_loceo par ieo) (some g), fun p e => if p = par ∧ e = ieo then q else s.H p e⟩

/-- `generate_hot_eo_conf`: the sites of the parity `par` are visited in the order `sched par`.  `/repo/src/operations/gaugeconf.cpp:200-217` -/
def generate_hot_eo_conf (loclx_of_loceo : Nat → Nat → Nat) (sched : Nat → List Nat) (s : MomState) : Option MomState :=
  [0, 1].foldlM (fun s par => (sched par).foldlM (hotStep loclx_of_loceo par) s) s

end

end Nissa.Gauss
