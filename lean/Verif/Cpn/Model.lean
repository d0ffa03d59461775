import Mathlib.Analysis.SpecialFunctions.Trigonometric.Deriv
import Mathlib.Analysis.SpecialFunctions.Complex.Arg
import Mathlib.Analysis.SpecialFunctions.Complex.Circle
import Mathlib.Analysis.InnerProductSpace.Basic

/-! # The CP(N-1) program

Models `/repo/projects/cpn/cpn.cpp`: energy, forces, molecular dynamics and topological charge of the CP(N-1) model.

Simplifications: `double` is `ℝ`; the sites are any finite set, the neighbours any bijection per direction (`loclx_neighup`, with inverse `loclx_neighdw`; that the tables are so is
C03 and following, that the halos hold the neighbours of the other ranks C08 and following); `N`, 21 in the code, is any number, the directions any finite set; the division of a null
vector by its norm gives zero, while the code gets not-a-number. The file is not updated to the present names of the library, and is modelled as written. -/

set_option linter.all false

namespace Nissa.Cpn
open ComplexConjugate

variable {N : ℕ} {X D : Type} [Fintype X] [Fintype D]

/-- `ON_t`.  cpn.cpp:7 -/
abbrev ON (N : ℕ) := Fin N → ℂ

noncomputable section

/-- `energy`.  cpn.cpp:176-197 -/
def energy (up : D → Equiv.Perm X) (z : X → ON N) (l : X → D → ℂ) : ℝ :=
  -(2 * (∑ x, ∑ mu, ∑ n, ((conj (z (up mu x) n) * z x n) * l x mu).re) - 2 * Fintype.card X * Fintype.card D)

/-- `action`, with the coupling `g` of the input.  cpn.cpp:200-201,88 -/
def action (beta : ℝ) (up : D → Equiv.Perm X) (z : X → ON N) (l : X → D → ℂ) : ℝ := energy up z l / (1 / (N * beta))

/-- `get_zeta_complex_scalar_prod`.  cpn.cpp:204-208 -/
def csp (a b : ON N) : ℂ := ∑ n, conj (a n) * b n

/-- `get_zeta_real_scalar_prod`.  cpn.cpp:211-216 -/
def rsp (a b : ON N) : ℝ := ∑ n, ((a n).re * (b n).re + (a n).im * (b n).im)

/-- `zeta_orthogonalize_with`.  cpn.cpp:225-229 -/
def orth (z w : ON N) : ON N := fun n => z n - w n * ((rsp w z / rsp w w : ℝ) : ℂ)

/-- `zeta_unitarize`.  cpn.cpp:232-236 -/
def zetaUnitarize (z : ON N) : ON N := fun n => z n * ((1 / Real.sqrt (rsp z z) : ℝ) : ℂ)

/-- `lambda_unitarize`.  cpn.cpp:239-244 -/
def lambdaUnitarize (l : ℂ) : ℂ := l * ((1 / Real.sqrt (l.re * l.re + l.im * l.im) : ℝ) : ℂ)

/-- `momenta_action`.  cpn.cpp:267-297 -/
def momentaAction (p : X → ON N) (om : X → D → ℝ) : ℝ := (∑ x, rsp (p x) (p x)) / 2 + (∑ x, ∑ mu, om x mu ^ 2) / 2

/-- `compute_lambda_forces`.  cpn.cpp:300-316 -/
def lambdaForce (beta : ℝ) (up : D → Equiv.Perm X) (z : X → ON N) (l : X → D → ℂ) : X → D → ℝ := fun x mu =>
  (∑ n, ((-(l x mu).re * (z (up mu x) n).im + (l x mu).im * (z (up mu x) n).re) * (z x n).re +
    ((l x mu).re * (z (up mu x) n).re + (l x mu).im * (z (up mu x) n).im) * (z x n).im)) * (-2 * beta * N)

/-- `site_staple`.  cpn.cpp:340-352 -/
def siteStaple (up : D → Equiv.Perm X) (z : X → ON N) (l : X → D → ℂ) (x : X) : ON N := fun n =>
  (∑ mu, (z (up mu x) n * conj (l x mu) + z ((up mu).symm x) n * l ((up mu).symm x) mu)) * 2

/-- `compute_zeta_forces`.  cpn.cpp:355-368 -/
def zetaForce (beta : ℝ) (up : D → Equiv.Perm X) (z : X → ON N) (l : X → D → ℂ) : X → ON N := fun x n =>
  orth (siteStaple up z l x) (z x) n * ((beta * N : ℝ) : ℂ)

/-- positions and momenta -/
structure State (N : ℕ) (X D : Type) where
  z : X → ON N
  l : X → D → ℂ
  p : X → ON N
  om : X → D → ℝ

/-- `update_momenta`.  cpn.cpp:391-424 -/
def updateMomenta (beta : ℝ) (up : D → Equiv.Perm X) (eps : ℝ) (s : State N X D) : State N X D :=
  { s with p := fun x n => s.p x n + zetaForce beta up s.z s.l x n * eps, om := fun x mu => s.om x mu + lambdaForce beta up s.z s.l x mu * eps }

/-- the new `zeta` of a site.  cpn.cpp:427-455 -/
def rotZ (eps : ℝ) (z p : ON N) : ON N :=
  let pi_norm := Real.sqrt (rsp p p)
  let al := eps * pi_norm
  fun n => z n * (Real.cos al : ℂ) + p n * ((Real.sin al / pi_norm : ℝ) : ℂ)

/-- the new `pi` of a site.  cpn.cpp:427-455 -/
def rotP (eps : ℝ) (z p : ON N) : ON N :=
  let pi_norm := Real.sqrt (rsp p p)
  let al := eps * pi_norm
  fun n => p n * (Real.cos al : ℂ) + z n * ((-pi_norm * Real.sin al : ℝ) : ℂ)

/-- `update_positions`.  cpn.cpp:427-477 -/
def updatePositions (eps : ℝ) (s : State N X D) : State N X D :=
  { s with z := fun x => rotZ eps (s.z x) (s.p x), p := fun x => rotP eps (s.z x) (s.p x),
           l := fun x mu => s.l x mu * ⟨Real.cos (eps * s.om x mu), Real.sin (eps * s.om x mu)⟩ }

/-- one iteration of the main loop.  cpn.cpp:491-504 -/
def mdStep (beta lam : ℝ) (up : D → Equiv.Perm X) (dt last : ℝ) (s : State N X D) : State N X D :=
  updateMomenta beta up last (updatePositions (dt / 2) (updateMomenta beta up ((1 - 2 * lam) * dt) (updatePositions (dt / 2) s)))

/-- the main loop from the step `i`.  cpn.cpp:488-505 -/
def mdLoop (beta lam : ℝ) (up : D → Equiv.Perm X) (dt : ℝ) : ℕ → State N X D → State N X D
  | 0, s => s
  | k + 1, s => mdLoop beta lam up dt k (mdStep beta lam up dt (if k = 0 then dt * lam else 2 * lam * dt) s)

/-- final normalization.  cpn.cpp:507-515 -/
def normalizeAll (s : State N X D) : State N X D :=
  { s with z := fun x => zetaUnitarize (s.z x), l := fun x mu => lambdaUnitarize (s.l x mu) }

/-- `hmc_integrate`.  cpn.cpp:480-518; `lam` is `OMELYAN_LAMBDA` -/
def integrate (beta lam : ℝ) (up : D → Equiv.Perm X) (nsteps : ℕ) (tl : ℝ) (s : State N X D) : State N X D :=
  let dt := tl / nsteps / 2
  normalizeAll (mdLoop beta lam up dt nsteps (updateMomenta beta up (dt * lam) s))

/-- `geometric_topology_simplified`, from the two directions 0 and 1.  cpn.cpp:570-611 -/
def topology (up : Fin 2 → Equiv.Perm X) (z : X → ON N) : ℝ :=
  (∑ n, (Complex.arg (csp (z (up 1 n)) (z ((up 0).symm n)) * csp (z n) (z (up 1 n)) * csp (z ((up 0).symm n)) (z n)) +
    Complex.arg (csp (z n) (z ((up 1).symm n)) * csp (z (up 0 n)) (z n) * csp (z ((up 1).symm n)) (z (up 0 n))))) / (2 * Real.pi)

end

end Nissa.Cpn
