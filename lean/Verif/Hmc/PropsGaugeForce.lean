import Verif.Hmc.PropsGaugeAction

/-! # The gauge force is the derivative of the gauge action -/

set_option linter.all false

namespace Nissa.GForce
open Nissa.Lx Nissa.Sten Nissa.Su3f Nissa.Gauge Nissa.Paths Nissa.LSm Nissa.Stap Matrix Complex

noncomputable section

/-- Specification: sum of all the paths closing a loop of the action with the link, with the weight of the loop, daggered -/
def stapleForce (beta C1 : ℝ) (g : Geo) (U : Coords → Quad) (x : Coords) (mu : Dir) : M3 :=
  ((-(beta * (1 - 8 * C1) / 3) : ℝ) • stapleSum g U Finset.univ x mu + (-(beta * C1 / 3) : ℝ) • rectSum g U x mu)ᴴ

/-- Specification: the force, projection on the algebra of link times staples -/
def forceSpec (beta C1 : ℝ) (g : Geo) (U : Coords → Quad) (x : Coords) (mu : Dir) : M3 := algPart (U x mu * stapleForce beta C1 g U x mu)

section
variable {g : Geo} (ok : g.Ok)
include ok

/-- the action in terms of the sums of the loops -/
theorem action_loops (beta C1 : ℝ) (U : Coords → Quad) : actionSpec beta C1 g U =
    beta * ((1 - 8 * C1) * (6 * g.glbVol - (∑ mu : Dir, ∑ nu ∈ Finset.univ.filter (mu < ·), ∑ x ∈ box g.L, (pathProd g U x (sqLoop mu nu)).trace.re) / 3) +
      C1 * (12 * g.glbVol - (∑ mu : Dir, ∑ nu ∈ Finset.univ.filter (· ≠ mu), ∑ x ∈ box g.L, (pathProd g U x (rectLoop mu nu)).trace.re) / 3)) := by
  rw [sum_lt, sum_ne]
  unfold actionSpec
  simp only [sum_lt, sum_ne]
  rw [Finset.sum_add_distrib, ← Finset.mul_sum, ← Finset.mul_sum]
  simp only [Finset.sum_add_distrib, Finset.sum_sub_distrib, Finset.sum_const, card_box ok, ← Finset.sum_div]
  simp only [nsmul_eq_mul]
  ring

omit ok in
theorem cuts_sq (mu nu : Dir) : cuts [] (sqLoop mu nu) =
    [(mu, [(nu, true), (mu, true), (nu, false)]), (nu, [(mu, false), (nu, true), (mu, true)]),
     (mu, [(nu, false), (mu, true), (nu, true)]), (nu, [(mu, true), (nu, true), (mu, false)])] := by
  simp [cuts, sqLoop, rev]

omit ok in
theorem cuts_rect (mu nu : Dir) : cuts [] (rectLoop mu nu) =
    [(nu, [(mu, true), (nu, true), (nu, true), (mu, false), (nu, false)]), (nu, [(nu, false), (mu, true), (nu, true), (nu, true), (mu, false)]),
     (mu, [(nu, false), (nu, false), (mu, true), (nu, true), (nu, true)]), (nu, [(nu, false), (mu, false), (nu, true), (nu, true), (mu, true)]),
     (nu, [(mu, false), (nu, true), (nu, true), (mu, true), (nu, false)]), (mu, [(nu, true), (nu, true), (mu, true), (nu, false), (nu, false)])] := by
  simp [cuts, rectLoop, rev]

/-- C50: derivative of the action along any smooth path of configurations: each link contributes the real trace of its variation times
the weighted sum of the staples computed by the force. -/
theorem C50_action_derivative (beta C1 : ℝ) {U : ℝ → Coords → Quad} {V : Coords → Quad} {t : ℝ}
    (h : ∀ x ∈ box g.L, ∀ mu, DerivM (fun s => U s x mu) (V x mu) t) :
    HasDerivAt (fun s => actionSpec beta C1 g (U s)) (∑ x ∈ box g.L, ∑ mu, (V x mu * stapleForce beta C1 g (U t) x mu).trace.re) t := by
  have e0 : (fun s => actionSpec beta C1 g (U s)) = fun s => beta * ((1 - 8 * C1) * (6 * g.glbVol -
      (∑ mu : Dir, ∑ nu ∈ Finset.univ.filter (mu < ·), ∑ x ∈ box g.L, (pathProd g (U s) x (sqLoop mu nu)).trace.re) / 3) +
      C1 * (12 * g.glbVol - (∑ mu : Dir, ∑ nu ∈ Finset.univ.filter (· ≠ mu), ∑ x ∈ box g.L, (pathProd g (U s) x (rectLoop mu nu)).trace.re) / 3)) :=
    funext fun s => action_loops ok beta C1 (U s)
  rw [e0]
  have hsq : ∀ mu nu : Dir, mu < nu → _ := fun mu nu hlt => loop_deriv ok h (sqLoop mu nu) (fun x hx => sqLoop_closed ok hx (ne_of_gt hlt))
  have hre : ∀ mu nu : Dir, nu ≠ mu → _ := fun mu nu hne => loop_deriv ok h (rectLoop mu nu) (fun x hx => rectLoop_closed ok hx hne)
  have h1 := HasDerivAt.fun_sum (u := Finset.univ) (fun (mu : Dir) _ => HasDerivAt.fun_sum (u := Finset.univ.filter (mu < ·)) fun nu hnu => hsq mu nu (Finset.mem_filter.1 hnu).2)
  have h2 := HasDerivAt.fun_sum (u := Finset.univ) (fun (mu : Dir) _ => HasDerivAt.fun_sum (u := Finset.univ.filter (· ≠ mu)) fun nu hnu => hre mu nu (Finset.mem_filter.1 hnu).2)
  have h3 := HasDerivAt.const_mul beta (HasDerivAt.add
    (HasDerivAt.const_mul (1 - 8 * C1) (HasDerivAt.const_sub (6 * (g.glbVol : ℝ)) (HasDerivAt.div_const h1 3)))
    (HasDerivAt.const_mul C1 (HasDerivAt.const_sub (12 * (g.glbVol : ℝ)) (HasDerivAt.div_const h2 3))))
  refine HasDerivAt.congr_deriv h3 ?_
  -- the sum of the staples
  rw [sum_lt, sum_ne]
  simp only [cuts_sq, cuts_rect, ← Finset.sum_add_distrib, Finset.sum_div, ← Finset.sum_neg_distrib, Finset.mul_sum]
  refine Finset.sum_congr rfl fun x hx => ?_
  have hF : ∀ mu, (V x mu * stapleForce beta C1 g (U t) x mu).trace.re =
      -(beta * (1 - 8 * C1) / 3) * (∑ nu ∈ Finset.univ.filter (· ≠ mu),
        ((V x mu * (pathProd g (U t) x [(nu, true), (mu, true), (nu, false)])ᴴ).trace.re + (V x mu * (pathProd g (U t) x [(nu, false), (mu, true), (nu, true)])ᴴ).trace.re)) +
      -(beta * C1 / 3) * (∑ nu ∈ Finset.univ.filter (· ≠ mu), (
        (V x mu * (pathProd g (U t) x [(mu, false), (nu, true), (mu, true), (mu, true), (nu, false)])ᴴ).trace.re +
        (V x mu * (pathProd g (U t) x [(nu, true), (nu, true), (mu, true), (nu, false), (nu, false)])ᴴ).trace.re +
        (V x mu * (pathProd g (U t) x [(nu, true), (mu, true), (mu, true), (nu, false), (mu, false)])ᴴ).trace.re +
        (V x mu * (pathProd g (U t) x [(mu, false), (nu, false), (mu, true), (mu, true), (nu, true)])ᴴ).trace.re +
        (V x mu * (pathProd g (U t) x [(nu, false), (nu, false), (mu, true), (nu, true), (nu, true)])ᴴ).trace.re +
        (V x mu * (pathProd g (U t) x [(nu, false), (mu, true), (mu, true), (nu, true), (mu, false)])ᴴ).trace.re)) := by
    intro mu
    unfold stapleForce stapleSum rectSum staplePair pathSum fwRects bwRects
    simp only [List.map_cons, List.map_nil, List.sum_cons, List.sum_nil, add_zero]
    rw [conjTranspose_add, conjTranspose_smul, conjTranspose_smul, star_trivial, star_trivial, Matrix.mul_add, Matrix.mul_smul, Matrix.mul_smul,
      Matrix.trace_add, Matrix.trace_smul, Matrix.trace_smul, Complex.add_re, Complex.smul_re, Complex.smul_re, smul_eq_mul, smul_eq_mul,
      conjTranspose_sum, conjTranspose_sum, Matrix.mul_sum, Matrix.mul_sum, Matrix.trace_sum, Matrix.trace_sum, Complex.re_sum, Complex.re_sum]
    congr 2
    · refine Finset.sum_congr rfl fun nu _ => ?_
      rw [conjTranspose_add, Matrix.mul_add, Matrix.trace_add, Complex.add_re]
    · refine Finset.sum_congr rfl fun nu _ => ?_
      simp only [conjTranspose_add, Matrix.mul_add, Matrix.trace_add, Complex.add_re]
      ring
  rw [Finset.sum_congr rfl fun mu _ => hF mu, Finset.sum_add_distrib, ← Finset.mul_sum, ← Finset.mul_sum, sum_ne, sum_ne]
  simp only [List.map_cons, List.map_nil, List.sum_cons, List.sum_nil, add_zero]
  ring

end

end

end Nissa.GForce
