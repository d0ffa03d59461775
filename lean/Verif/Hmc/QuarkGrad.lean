import Verif.Hmc.QuarkCalc
import Verif.Hmc.PropsGaugeForce3
import Mathlib.Analysis.Calculus.Deriv.Prod

/-! # The gradient of the pseudofermion action -/

set_option linter.all false

namespace Nissa.QForce
open Nissa.Lx Nissa.Sten Nissa.Su3f Nissa.Gauge Nissa.GForce Nissa.LSm Nissa.StD Nissa.Back Nissa.CgF Nissa.Inv Matrix Complex
open scoped RealInnerProductSpace Topology

noncomputable section

theorem toE_deriv {ι : Type} [Fintype ι] {f : ℝ → ι → ℂ} {d : ι → ℂ} {t : ℝ} (h : ∀ i, HasDerivAt (fun s => f s i) (d i) t) :
    HasDerivAt (fun s => (WithLp.toLp 2 (f s) : EV ι)) (WithLp.toLp 2 d) t :=
  ((PiLp.continuousLinearEquiv 2 ℝ (fun _ : ι => ℂ)).symm.toContinuousLinearMap.hasFDerivAt.comp_hasDerivAt t (hasDerivAt_pi.2 h))

theorem outer_trace (W : M3) (a b : Col) : (W * outer a b).trace = star b ⬝ᵥ (W *ᵥ a) := by
  simp only [Matrix.trace, Matrix.diag, Matrix.mul_apply, outer, dotProduct, mulVec, Finset.mul_sum, Pi.star_apply]
  refine Finset.sum_comm.trans ?_
  rw [Finset.sum_comm]
  exact Finset.sum_congr rfl fun i _ => Finset.sum_congr rfl fun j _ => by ring

section
variable {g : Geo} (ok : g.Ok) (eo : EoOk g)
include ok eo

/-- a sum on all the links, as sums on the two parities -/
theorem force_sum (W V : Coords → Quad) (chi : Coords → Col) :
    ∑ x ∈ box g.L, ∑ mu : Dir, (W x mu * pfForce g V chi x mu).trace.re = -(dot (boxP g 1) (odd g V chi) (hop g W chi)).re := by
  have e0 : ∀ c ∈ boxP g 0, ∀ mu : Dir, W c mu * pfForce g V chi c mu = W c mu * outer (odd g V chi (tshift g c mu 1)) (chi c) := by
    intro c hc mu; rw [pfForce, if_pos (mem_boxP.1 hc).2]
  have e1 : ∀ c ∈ boxP g 1, ∀ mu : Dir, W c mu * pfForce g V chi c mu = -(W c mu * outer (chi (tshift g c mu 1)) (odd g V chi c)) := by
    intro c hc mu
    rw [pfForce, if_neg (by rw [(mem_boxP.1 hc).2]; decide), Matrix.mul_neg]
  have f0 : ∑ c ∈ boxP g 0, ∑ mu : Dir, (W c mu * pfForce g V chi c mu).trace.re = ∑ c ∈ boxP g 0, ∑ mu : Dir, (W c mu * outer (odd g V chi (tshift g c mu 1)) (chi c)).trace.re :=
    Finset.sum_congr rfl fun c hc => Finset.sum_congr rfl fun mu _ => by rw [e0 c hc mu]
  have f1 : ∑ c ∈ boxP g 1, ∑ mu : Dir, (W c mu * pfForce g V chi c mu).trace.re = ∑ c ∈ boxP g 1, ∑ mu : Dir, (-(W c mu * outer (chi (tshift g c mu 1)) (odd g V chi c))).trace.re :=
    Finset.sum_congr rfl fun c hc => Finset.sum_congr rfl fun mu _ => by rw [e1 c hc mu]
  rw [sum_parities, f0, f1]
  have e2 : dot (boxP g 1) (odd g V chi) (hop g W chi) = ∑ c ∈ boxP g 1, ∑ mu : Dir, (star (odd g V chi c) ⬝ᵥ (W c mu *ᵥ chi (tshift g c mu 1)) -
      star (odd g V chi c) ⬝ᵥ ((W (tshift g c mu (-1)) mu)ᴴ *ᵥ chi (tshift g c mu (-1)))) := by
    unfold dot hop
    refine Finset.sum_congr rfl fun c _ => ?_
    rw [dotProduct_sum]
    exact Finset.sum_congr rfl fun mu _ => dotProduct_sub _ _ _
  rw [e2]
  simp only [Finset.sum_sub_distrib, Complex.sub_re, Complex.re_sum, Matrix.trace_neg, Complex.neg_re, outer_trace, Finset.sum_neg_distrib]
  have e3 : ∑ c ∈ boxP g 0, ∑ mu : Dir, (star (chi c) ⬝ᵥ (W c mu *ᵥ odd g V chi (tshift g c mu 1))).re =
      ∑ c ∈ boxP g 1, ∑ mu : Dir, (star (odd g V chi c) ⬝ᵥ ((W (tshift g c mu (-1)) mu)ᴴ *ᵥ chi (tshift g c mu (-1)))).re := by
    rw [Finset.sum_comm, Finset.sum_comm (s := boxP g 1)]
    refine Finset.sum_congr rfl fun mu _ => ?_
    rw [sum_shift_parity ok eo (by omega : 0 < 2) mu (.inl rfl) (fun c d => (star (chi c) ⬝ᵥ (W c mu *ᵥ odd g V chi d)).re)]
    refine Finset.sum_congr rfl fun c _ => ?_
    rw [← Complex.conj_re]
    congr 1
    rw [← Complex.star_def, Matrix.star_dotProduct, star_mulVec, star_star, ← Matrix.dotProduct_mulVec]
  rw [e3]
  ring

/-- Derivative, along any smooth path of links, of the scalar product of the pseudofermion with the solution of the system. -/
theorem pf_deriv {V : ℝ → Coords → Quad} {W : Coords → Quad} {t : ℝ} (hV : ∀ x ∈ box g.L, ∀ mu, DerivM (fun s => V s x mu) (W x mu) t)
    {p : ℝ} (hp : 0 < p) (phi : Coords → Col) (chi : ℝ → Coords → Col) (hx : ∀ s, Solves g (V s) p phi (chi s)) :
    HasDerivAt (fun s => (dot (boxP g 0) phi (chi s)).re) (∑ x ∈ box g.L, ∑ mu, (W x mu * pfForce g (V t) (chi t) x mu).trace.re) t := by
  set d : Coords → Col := fun c => -((1 / 4 : ℝ) • (hop g W (hop g (V t) (chi t)) c + hop g (V t) (hop g W (chi t)) c)) with hd
  have hbox : ∀ {p c}, c ∈ boxP g p → c ∈ box g.L := fun h => (mem_boxP.1 h).1
  have hh : ∀ c ∈ box g.L, ∀ a, HasDerivAt (fun s => hop g (V s) (chi t) c a) (hop g W (chi t) c a) t := by
    intro c hc a
    refine HasDerivAt.congr_deriv (hop_deriv (y := fun _ _ => 0) (x := fun _ => chi t) (fun mu => hV c hc mu) (fun mu => hV _ (tshift_mem_box ok hc mu (-1)) mu)
      (fun mu a => hasDerivAt_const t _) (fun mu a => hasDerivAt_const t _) a) ?_
    have : hop g (V t) (fun _ _ => 0) c = 0 := by
      unfold hop
      refine Finset.sum_eq_zero fun mu _ => ?_
      have : (fun _ => 0 : Col) = 0 := rfl
      rw [this, mulVec_zero, mulVec_zero, sub_zero]
    rw [this]; simp
  have hk : ∀ c ∈ boxP g 0, ∀ a, HasDerivAt (fun s => kern g (V s) p (chi t) c a) (d c a) t := by
    intro c hc a
    have hc' := hbox hc
    have h1 := hop_deriv (x := fun s => hop g (V s) (chi t)) (y := hop g W (chi t)) (fun mu => hV c hc' mu) (fun mu => hV _ (tshift_mem_box ok hc' mu (-1)) mu)
      (fun mu a => hh _ (tshift_mem_box ok hc' mu 1) a) (fun mu a => hh _ (tshift_mem_box ok hc' mu (-1)) a) a
    have h2 := HasDerivAt.sub (hasDerivAt_const t (p • chi t c a)) (HasDerivAt.const_smul (1 / 4 : ℝ) h1)
    refine HasDerivAt.congr_deriv h2 ?_
    simp [hd]
  have hE : HasDerivAt (fun s => kernE g (V s) p ((evenView g).toE (chi t))) ((evenView g).toE d) t := by
    simp only [kernE_toE ok eo]
    exact toE_deriv fun i => hk i.1.1 i.1.2 i.2
  have hr := resolvent_deriv (fun s => kernE g (V s) p) hp (fun s => kernE_symm ok eo (V s) p) (fun s => kernE_coer ok eo (V s) p)
    (fun s => (evenView g).toE (chi s)) ((evenView g).toE phi) (fun s => (solves_toE ok eo).1 (hx s)) hE
  simp only [toE_inner, even_dot] at hr
  refine HasDerivAt.congr_deriv hr ?_
  rw [force_sum ok eo]
  have e1 : d = (-(1 / 4 : ℝ)) • (hop g W (hop g (V t) (chi t)) + hop g (V t) (hop g W (chi t))) := by
    funext c
    rw [hd]
    show -((1 / 4 : ℝ) • (hop g W (hop g (V t) (chi t)) c + hop g (V t) (hop g W (chi t)) c)) = (-(1 / 4 : ℝ)) • (hop g W (hop g (V t) (chi t)) c + hop g (V t) (hop g W (chi t)) c)
    rw [neg_smul]
  have e2 : odd g (V t) (chi t) = (1 / 2 : ℝ) • hop g (V t) (chi t) := rfl
  rw [e1, e2, dot_smul, dot_add, hop_antihermitian_parity ok eo W (by omega : 0 < 2), hop_antihermitian_parity ok eo (V t) (by omega : 0 < 2), smul_dot,
    ← dot_conj (boxP g (1 - 0)) (hop g (V t) (chi t)) (hop g W (chi t))]
  simp only [Complex.mul_re, Complex.add_re, Complex.neg_re, Complex.ofReal_re, Complex.ofReal_im, Complex.conj_re, Complex.conj_im, Complex.add_im, Complex.neg_im]
  simp
  ring

end

end

end Nissa.QForce
