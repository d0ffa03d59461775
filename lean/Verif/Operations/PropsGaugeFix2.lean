import Verif.Operations.PropsGaugeFix

/-! # C60: the quality and the variation of the functional; the step of the minimisation goes downhill -/

set_option linter.all false

namespace Nissa.GFix
open Nissa.Lx Nissa.Sten Nissa.Gauge Nissa.Su3f Nissa.Paths Nissa.GForce Matrix

noncomputable section

/-- a field in the algebra: antihermitian and traceless at all the sites -/
def InAlg (g : Geo) (H : Coords → M3) : Prop := ∀ x ∈ box g.L, (H x)ᴴ = -H x ∧ (H x).trace = 0

/-- real trace of the product with an element of the algebra sees only the part in the algebra -/
theorem reTr_alg {H : M3} (hh : Hᴴ = -H) (ht : H.trace = 0) (M : M3) : (H * M).trace.re = (H * alg M).trace.re := by
  unfold alg
  rw [Matrix.mul_sub, Matrix.mul_smul, Matrix.mul_smul, Matrix.mul_one, Matrix.trace_sub, Matrix.trace_smul, Matrix.trace_smul, ht, smul_zero, sub_zero,
    Matrix.mul_sub, Matrix.trace_sub]
  have e : (H * Mᴴ).trace = -star (H * M).trace := by
    rw [← Matrix.trace_conjTranspose, Matrix.conjTranspose_mul, hh, Matrix.mul_neg, Matrix.trace_neg, neg_neg, Matrix.trace_mul_comm]
  rw [e, sub_neg_eq_add]
  simp [Complex.add_re, Complex.mul_re]
  ring

theorem normsq_nonneg (M : M3) : 0 ≤ (M * Mᴴ).trace.re := by
  rw [← norm2_trace, norm2_entries]
  exact Finset.sum_nonneg fun i _ => Finset.sum_nonneg fun j _ => Complex.normSq_nonneg _

theorem normsq_zero {M : M3} (h : (M * Mᴴ).trace.re = 0) : M = 0 := by
  rw [← norm2_trace, norm2_entries] at h
  have h1 := (Finset.sum_eq_zero_iff_of_nonneg fun i _ => Finset.sum_nonneg fun j _ => Complex.normSq_nonneg _).1 h
  ext i j
  have h2 := (Finset.sum_eq_zero_iff_of_nonneg fun j _ => Complex.normSq_nonneg _).1 (h1 i (Finset.mem_univ _)) j (Finset.mem_univ _)
  exact Complex.normSq_eq_zero.1 h2

section
variable {g : Geo} (ok : g.Ok)
include ok

/-- derivative of the functional along a curve of gauge transformations starting from the identity -/
theorem gfunc_deriv (start : Nat) (U : Coords → Quad) (G : ℝ → Coords → M3) (H : Coords → M3) (hH : InAlg g H)
    (h0 : ∀ x ∈ box g.L, G 0 x = 1) (hG : ∀ x ∈ box g.L, DerivM (fun t => G t x) (H x) 0) :
    HasDerivAt (fun t => gfunc g start (transformed g (G t) U)) (∑ x ∈ box g.L, (H x * diverg g start U x).trace.re) 0 := by
  have hd : ∀ x ∈ box g.L, ∀ mu, HasDerivAt (fun t => (transformed g (G t) U x mu).trace.re)
      ((H x * U x mu).trace.re - (H (tshift g x mu 1) * U x mu).trace.re) 0 := by
    intro x hx mu
    have hy := tshift_mem_box ok hx mu 1
    have := (((hG x hx).mul (DerivM.const (U x mu) 0)).mul (hG _ hy).dag).reTr
    refine HasDerivAt.congr_deriv this ?_
    rw [h0 x hx, h0 _ hy, (hH _ hy).1]
    simp only [Matrix.mul_zero, add_zero, Matrix.conjTranspose_one, Matrix.mul_one, Matrix.one_mul, Matrix.mul_neg, Matrix.trace_add, Matrix.trace_neg,
      Complex.add_re, Complex.neg_re]
    rw [Matrix.trace_mul_comm (U x mu)]
    ring
  have hs : HasDerivAt (fun t => gfunc g start (transformed g (G t) U))
      (-∑ x ∈ box g.L, ∑ mu ∈ gdirs start, ((H x * U x mu).trace.re - (H (tshift g x mu 1) * U x mu).trace.re)) 0 := by
    unfold gfunc
    refine HasDerivAt.neg ?_
    have := HasDerivAt.fun_sum (u := box g.L) (A := fun x (t : ℝ) => ∑ mu ∈ gdirs start, (transformed g (G t) U x mu).trace.re)
      (fun x hx => HasDerivAt.fun_sum (u := gdirs start) fun mu _ => hd x hx mu)
    exact this
  refine HasDerivAt.congr_deriv hs ?_
  have hshift : ∀ mu, ∑ x ∈ box g.L, (H (tshift g x mu 1) * U x mu).trace.re = ∑ x ∈ box g.L, (H x * U (tshift g x mu (-1)) mu).trace.re := fun mu =>
    sum_shift ok mu (d := 1) (.inl rfl) (fun c c' => (H c' * U c mu).trace.re)
  rw [Finset.sum_comm]
  simp only [Finset.sum_sub_distrib]
  rw [Finset.sum_congr rfl fun mu _ => hshift mu, neg_sub, ← Finset.sum_sub_distrib]
  simp only [← Finset.sum_sub_distrib]
  rw [Finset.sum_comm]
  refine Finset.sum_congr rfl fun x hx => ?_
  unfold diverg
  rw [← reTr_alg (hH x hx).1 (hH x hx).2, Matrix.mul_sum, Matrix.trace_sum, Complex.re_sum]
  refine Finset.sum_congr rfl fun mu _ => ?_
  rw [Matrix.mul_sub, Matrix.trace_sub, Complex.sub_re]

theorem exp_derivM (A : M3) : DerivM (fun t : ℝ => NormedSpace.exp (t • A)) A 0 := by
  intro i j
  letI : NormedRing M3 := Matrix.linftyOpNormedRing
  letI : NormedAlgebra ℝ M3 := Matrix.linftyOpNormedAlgebra
  have h := hasDerivAt_exp_smul_const (𝕂 := ℝ) A (0 : ℝ)
  rw [zero_smul, NormedSpace.exp_zero, one_mul] at h
  haveI : FiniteDimensional ℝ M3 := inferInstance
  have := (LinearMap.toContinuousLinearMap (Matrix.entryLinearMap ℝ ℂ i j : M3 →ₗ[ℝ] ℂ)).hasFDerivAt.comp_hasDerivAt (0 : ℝ) h
  exact this

theorem diverg_inAlg (start : Nat) (U : Coords → Quad) : InAlg g (diverg g start U) := fun x _ => ⟨alg_anti _, alg_trace _⟩

theorem gqual_nonneg (start : Nat) (U : Coords → Quad) : 0 ≤ gqual g start U := by
  unfold gqual
  refine div_nonneg (Finset.sum_nonneg fun x _ => ?_) (by positivity)
  have := normsq_nonneg (diverg g start U x)
  linarith

theorem glbVol_pos : (0 : ℝ) < g.glbVol := by
  have h := L_pos ok
  unfold Geo.glbVol volOfLx dirs
  have a := h 0; have b := h 1; have c := h 2; have d := h 3
  simp only [List.foldl]
  positivity

theorem gqual_zero (start : Nat) (U : Coords → Quad) : gqual g start U = 0 ↔ ∀ x ∈ box g.L, diverg g start U x = 0 := by
  have hv := glbVol_pos ok
  unfold gqual
  rw [div_eq_zero_iff, or_iff_left (by positivity), Finset.sum_eq_zero_iff_of_nonneg (fun x _ => by
    have := normsq_nonneg (diverg g start U x); linarith)]
  constructor
  · intro h x hx
    refine normsq_zero ?_
    have := h x hx
    linarith
  · intro h x hx
    rw [h x hx]; simp

/-- C60: the quality vanishes exactly when the functional is stationary under all the gauge transformations `exp(t H(x))`. -/
theorem C60_stationary (start : Nat) (U : Coords → Quad) :
    gqual g start U = 0 ↔ ∀ H : Coords → M3, InAlg g H →
      HasDerivAt (fun t : ℝ => gfunc g start (transformed g (fun x => NormedSpace.exp (t • H x)) U)) 0 0 := by
  rw [gqual_zero ok]
  have key : ∀ H : Coords → M3, InAlg g H → HasDerivAt (fun t : ℝ => gfunc g start (transformed g (fun x => NormedSpace.exp (t • H x)) U))
      (∑ x ∈ box g.L, (H x * diverg g start U x).trace.re) 0 := by
    intro H hH
    exact gfunc_deriv ok start U (fun t x => NormedSpace.exp (t • H x)) H hH (fun x _ => by simp) (fun x _ => exp_derivM ok (H x))
  constructor
  · intro h H hH
    refine HasDerivAt.congr_deriv (key H hH) ?_
    refine Finset.sum_eq_zero fun x hx => ?_
    rw [h x hx]; simp
  · intro h x hx
    have h1 := (h _ (diverg_inAlg ok start U)).unique (key _ (diverg_inAlg ok start U))
    have h2 : ∑ x ∈ box g.L, (diverg g start U x * (diverg g start U x)ᴴ).trace.re = 0 := by
      rw [← neg_inj, ← Finset.sum_neg_distrib, neg_zero, h1]
      refine Finset.sum_congr rfl fun x hx => ?_
      rw [(diverg_inAlg ok start U x hx).1, Matrix.mul_neg, Matrix.trace_neg, Complex.neg_re, neg_neg]
    exact normsq_zero ((Finset.sum_eq_zero_iff_of_nonneg fun x _ => normsq_nonneg _).1 h2 x hx)

end

/-! ### the step -/

theorem expo_deriv (A : M3) : DerivM (fun t : ℝ => anti_hermitian_exact_exponentiate (t • A)) A 0 := by
  have h := hexp_deriv ((-Complex.I) • A)
  rw [smul_smul] at h
  simp only [mul_neg, Complex.I_mul_I, neg_neg, one_smul] at h
  intro i j
  have := h i j
  refine this.congr_of_eventuallyEq (Filter.Eventually.of_forall fun t => ?_)
  show anti_hermitian_exact_exponentiate (t • A) i j = _
  unfold anti_hermitian_exact_exponentiate
  rw [smul_comm]

theorem expo_zero : anti_hermitian_exact_exponentiate 0 = 1 := by
  unfold anti_hermitian_exact_exponentiate
  rw [smul_zero, Nissa.LSm.hexp_zero]

theorem scaleD {f : ℝ → M3} {f' : M3} (c : ℝ) (h : DerivM f f' 0) : DerivM (fun t => f (c * t)) (c • f') 0 := by
  intro i j
  have h1 : HasDerivAt (fun t : ℝ => c * t) c 0 := by
    simpa using (hasDerivAt_id (0 : ℝ)).const_mul c
  have h2 := h i j
  have h3 : HasDerivAt (fun s => f s i j) (f' i j) (c * 0) := by rw [mul_zero]; exact h2
  have := HasDerivAt.scomp (0 : ℝ) h3 h1
  exact this

section
variable (E : Env) (ok : E.g.Ok)
include ok

/-- the configuration after a step along `v` with a given alpha, in terms of the configuration before -/
theorem step_conf (ext : Fld Quad) (fixer v : Fld M3) (conf : Fld Quad) (hc : ∀ x ∈ box E.g.L, glob E.g conf x = transformed E.g (glob E.g fixer) (glob E.g ext) x)
    (alpha : ℝ) (x : Coords) (hx : x ∈ box E.g.L) :
    glob E.g (gauge_transform_conf E.g E.ji E.jm (addCurrent (expDerAlphaHalf E v alpha) fixer) ext) x =
      transformed E.g (fun x => E.expo ((-0.5 * alpha) • glob E.g v x)) (glob E.g conf) x := by
  rw [C32_gauge_transform ok _ _ _ _ x hx]
  have e : transformed E.g (fun x => E.expo ((-0.5 * alpha) • glob E.g v x)) (glob E.g conf) x =
      transformed E.g (fun x => E.expo ((-0.5 * alpha) • glob E.g v x)) (transformed E.g (glob E.g fixer) (glob E.g ext)) x := by
    funext mu
    unfold transformed
    rw [hc x hx]
    rfl
  rw [e, (C32_transform_group _ _ _ _).1]
  rfl

theorem gfunc_congr {start : Nat} {U V : Coords → Quad} (h : ∀ x ∈ box E.g.L, U x = V x) : gfunc E.g start U = gfunc E.g start V := by
  unfold gfunc
  rw [Finset.sum_congr rfl fun x hx => by rw [h x hx]]

/-- derivative of the functional in alpha along a field of the algebra -/
theorem step_deriv (he : E.expo = anti_hermitian_exact_exponentiate) (start : Nat) (ext : Fld Quad) (fixer v : Fld M3) (conf : Fld Quad)
    (hc : ∀ x ∈ box E.g.L, glob E.g conf x = transformed E.g (glob E.g fixer) (glob E.g ext) x) (hv : InAlg E.g (glob E.g v)) :
    HasDerivAt (fun alpha => gfunc E.g start (glob E.g (gauge_transform_conf E.g E.ji E.jm (addCurrent (expDerAlphaHalf E v alpha) fixer) ext)))
      (-(1 / 2) * ∑ x ∈ box E.g.L, (glob E.g v x * (glob E.g (derOf E start conf) x)ᴴ).trace.re) 0 := by
  have hH : InAlg E.g (fun x => (-0.5 : ℝ) • glob E.g v x) := by
    intro x hx
    obtain ⟨h1, h2⟩ := hv x hx
    refine ⟨?_, ?_⟩
    · simp only
      rw [Matrix.conjTranspose_smul, h1, smul_neg]; rfl
    · simp only
      rw [Matrix.trace_smul, h2, smul_zero]
  have key := gfunc_deriv ok start (glob E.g conf) (fun alpha x => E.expo ((-0.5 * alpha) • glob E.g v x)) _ hH
    (fun x _ => by rw [he]; simp only [mul_zero, zero_smul]; exact expo_zero)
    (fun x _ => by
      rw [he]
      exact scaleD (-0.5) (expo_deriv (glob E.g v x)))
  have e : (fun alpha => gfunc E.g start (glob E.g (gauge_transform_conf E.g E.ji E.jm (addCurrent (expDerAlphaHalf E v alpha) fixer) ext))) =
      fun alpha => gfunc E.g start (transformed E.g (fun x => E.expo ((-0.5 * alpha) • glob E.g v x)) (glob E.g conf)) := by
    funext alpha
    exact gfunc_congr E ok (step_conf E ok ext fixer v conf hc alpha)
  rw [e]
  refine HasDerivAt.congr_deriv key ?_
  rw [Finset.mul_sum]
  refine Finset.sum_congr rfl fun x hx => ?_
  rw [derOf_eq E ok start conf hx, Matrix.conjTranspose_neg, (diverg_inAlg ok start _ x hx).1, neg_neg, Matrix.smul_mul, Matrix.trace_smul, Complex.smul_re]
  rw [smul_eq_mul]
  norm_num

/-- the sum of the squares of the derivative is the quality -/
theorem der_norm (start : Nat) (conf : Fld Quad) :
    ∑ x ∈ box E.g.L, (glob E.g (derOf E start conf) x * (glob E.g (derOf E start conf) x)ᴴ).trace.re =
      3 * E.g.glbVol / 4 * gqual E.g start (glob E.g conf) := by
  have hv := glbVol_pos ok
  unfold gqual
  rw [← Finset.mul_sum]
  rw [Finset.sum_congr rfl fun x hx => by rw [derOf_eq E ok start conf hx, Matrix.conjTranspose_neg, neg_mul_neg]]
  field_simp

/-- a functional with negative derivative decreases for all small enough steps -/
theorem decreases {f : ℝ → ℝ} {d : ℝ} (h : HasDerivAt f d 0) (hd : d < 0) : ∃ a0 > 0, ∀ a, 0 < a → a < a0 → f a < f 0 := by
  have h1 := h.tendsto_slope_zero
  simp only [zero_add] at h1
  have h2 : ∀ᶠ t in nhdsWithin (0 : ℝ) {0}ᶜ, t⁻¹ • (f t - f 0) < 0 := h1.eventually (gt_mem_nhds hd)
  rw [eventually_nhdsWithin_iff, Metric.eventually_nhds_iff] at h2
  obtain ⟨e, he, h3⟩ := h2
  refine ⟨e, he, fun a ha hae => ?_⟩
  have := h3 (y := a) (by rw [Real.dist_eq, sub_zero, abs_of_pos ha]; exact hae) (by simp; exact ha.ne')
  rw [smul_eq_mul] at this
  have h4 := (mul_neg_iff.1 this)
  rcases h4 with ⟨_, h5⟩ | ⟨h5, _⟩
  · linarith
  · have := inv_pos.2 ha; linarith

/-- C60: a step of the plain method (no Fourier acceleration, no conjugate gradient, no search of alpha): the functional, as a function of
alpha, starts with slope `-3V/8` times the quality.  If the quality is not zero the functional decreases for all the alpha small enough. -/
theorem C60_descent (he : E.expo = anti_hermitian_exact_exponentiate) (P : Pars) (ext : Fld Quad) (s : St)
    (hc : ∀ x ∈ box E.g.L, glob E.g s.conf x = transformed E.g (glob E.g s.fixer) (glob E.g ext) x)
    (h1 : s.useAdapt = false) (h2 : s.useGcg = false) (h3 : P.useFftAcc ≤ 0) (h4 : -P.useFftAcc ≤ s.iter) :
    let F : ℝ → ℝ := fun alpha => gfunc E.g P.gauge (glob E.g (exponentiate E { P with alphaExp := alpha } ext s).conf)
    HasDerivAt F (-(3 * E.g.glbVol / 8) * gqual E.g P.gauge (glob E.g s.conf)) 0 ∧ F 0 = gfunc E.g P.gauge (glob E.g s.conf) ∧
    (gqual E.g P.gauge (glob E.g s.conf) ≠ 0 → ∃ a0 > 0, ∀ a, 0 < a → a < a0 → F a < gfunc E.g P.gauge (glob E.g s.conf)) := by
  intro F
  have hacc : ¬ (P.useFftAcc > 0 ∨ (s.iter : Int) < -P.useFftAcc) := by push Not; omega
  have e : F = fun alpha => gfunc E.g P.gauge (glob E.g (gauge_transform_conf E.g E.ji E.jm
      (addCurrent (expDerAlphaHalf E (derOf E P.gauge s.conf) alpha) s.fixer) ext)) := by
    funext alpha
    show gfunc E.g P.gauge (glob E.g (exponentiate E { P with alphaExp := alpha } ext s).conf) = _
    unfold exponentiate direction
    simp only [h1, h2, hacc, if_false, Bool.false_eq_true]
  have hv : InAlg E.g (glob E.g (derOf E P.gauge s.conf)) := by
    intro x hx
    rw [derOf_eq E ok _ _ hx, Matrix.conjTranspose_neg, Matrix.trace_neg, (diverg_inAlg ok _ _ x hx).1, (diverg_inAlg ok _ _ x hx).2]
    exact ⟨rfl, by simp⟩
  have hd : HasDerivAt F (-(3 * E.g.glbVol / 8) * gqual E.g P.gauge (glob E.g s.conf)) 0 := by
    rw [e]
    refine HasDerivAt.congr_deriv (step_deriv E ok he P.gauge ext s.fixer _ s.conf hc hv) ?_
    rw [der_norm E ok]
    ring
  have h0 : F 0 = gfunc E.g P.gauge (glob E.g s.conf) := by
    rw [e]
    refine gfunc_congr E ok fun x hx => ?_
    rw [step_conf E ok ext s.fixer _ s.conf hc 0 x hx]
    simp only [mul_zero, zero_smul, he, expo_zero]
    rw [(C32_transform_group _ (fun _ => 1) (fun _ => 1) _).2]
  refine ⟨hd, h0, fun hq => ?_⟩
  rw [← h0]
  have hq' : 0 < gqual E.g P.gauge (glob E.g s.conf) := lt_of_le_of_ne (gqual_nonneg ok _ _) (Ne.symm hq)
  have hv := glbVol_pos ok
  exact decreases E ok hd (by
    have : 0 < 3 * (E.g.glbVol : ℝ) / 8 * gqual E.g P.gauge (glob E.g s.conf) := by positivity
    linarith)

end

end

end Nissa.GFix
