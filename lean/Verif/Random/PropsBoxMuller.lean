import Mathlib.Analysis.SpecialFunctions.PolarCoord
import Mathlib.MeasureTheory.Function.JacobianOneDim
import Mathlib.MeasureTheory.Integral.IntervalIntegral.Periodic
import Mathlib.Probability.Distributions.Gaussian.Real
import Mathlib.MeasureTheory.Measure.Prod

/-! # The Box-Muller transformation

Two numbers uniform in `[0,1)` are sent in two independent gaussian numbers. -/

set_option linter.all false

namespace Nissa.BoxM
open MeasureTheory ProbabilityTheory Set
open scoped ENNReal

/-- uniform law in `[0,1)` -/
noncomputable def unifLaw : Measure ℝ := volume.restrict (Ico 0 1)

instance : IsProbabilityMeasure unifLaw := ⟨by simp [unifLaw]⟩

/-- the radius as function of the first number -/
noncomputable def radius (u : ℝ) : ℝ := Real.sqrt (-2 * Real.log (1 - u))

/-- the transformation -/
noncomputable def boxMuller (u : ℝ × ℝ) : ℝ × ℝ := (radius u.1 * Real.cos (2 * Real.pi * u.2), radius u.1 * Real.sin (2 * Real.pi * u.2))

theorem radius_meas : Measurable radius := by unfold radius; fun_prop

theorem boxMuller_meas : Measurable boxMuller := by
  unfold boxMuller
  have := radius_meas
  fun_prop

/-- inverse of the radius -/
noncomputable def cdf (r : ℝ) : ℝ := 1 - Real.exp (-(r ^ 2) / 2)

theorem radius_cdf {r : ℝ} (hr : 0 < r) : radius (cdf r) = r := by
  unfold radius cdf
  rw [sub_sub_cancel, Real.log_exp, show -2 * (-(r ^ 2) / 2) = r ^ 2 by ring, Real.sqrt_sq hr.le]

theorem cdf_image : cdf '' Ioi 0 = Ioo 0 1 := by
  ext u
  constructor
  · rintro ⟨r, hr, rfl⟩
    have hr : 0 < r := hr
    unfold cdf
    have h1 : Real.exp (-(r ^ 2) / 2) < 1 := by rw [Real.exp_lt_one_iff]; nlinarith
    have h2 := Real.exp_pos (-(r ^ 2) / 2)
    exact ⟨by linarith, by linarith⟩
  · rintro ⟨h0, h1⟩
    have hl : Real.log (1 - u) < 0 := Real.log_neg (by linarith) (by linarith)
    refine ⟨radius u, ?_, ?_⟩
    · show 0 < radius u
      exact Real.sqrt_pos.2 (by linarith)
    · unfold cdf radius
      rw [Real.sq_sqrt (by linarith), show -(-2 * Real.log (1 - u)) / 2 = Real.log (1 - u) by ring, Real.exp_log (by linarith)]
      ring

theorem lint_radius (G : ℝ → ℝ≥0∞) : ∫⁻ u in Ico (0 : ℝ) 1, G (radius u) = ∫⁻ r in Ioi (0 : ℝ), ENNReal.ofReal (r * Real.exp (-(r ^ 2) / 2)) * G r := by
  rw [setLIntegral_congr Ioo_ae_eq_Ico.symm, ← cdf_image]
  rw [lintegral_image_eq_lintegral_abs_deriv_mul measurableSet_Ioi (f := cdf) (f' := fun r => r * Real.exp (-(r ^ 2) / 2))]
  · refine setLIntegral_congr_fun measurableSet_Ioi fun r hr => ?_
    have hr : 0 < r := hr
    simp only [radius_cdf hr]
    rw [abs_of_pos (mul_pos hr (Real.exp_pos _))]
  · intro r _
    unfold cdf
    have h1 : HasDerivAt (fun r : ℝ => -(r ^ 2) / 2) (-r) r := by
      have := (((hasDerivAt_id r).pow 2).neg).div_const 2
      refine (this.congr_deriv ?_)
      simp
      ring
    refine ((h1.exp.const_sub 1).congr_deriv ?_).hasDerivWithinAt
    ring
  · intro a ha b hb h
    rw [← radius_cdf (show 0 < a from ha), ← radius_cdf (show 0 < b from hb), h]

theorem lint_angle (k : ℝ → ℝ≥0∞) (hk : ∀ x, k (x + 2 * Real.pi) = k x) :
    ∫⁻ u in Ico (0 : ℝ) 1, k (2 * Real.pi * u) = ENNReal.ofReal (1 / (2 * Real.pi)) * ∫⁻ t in Ioo (-Real.pi) Real.pi, k t := by
  have hpi := Real.pi_pos
  have him : (fun t : ℝ => t / (2 * Real.pi)) '' Ioc 0 (0 + 2 * Real.pi) = Ioc 0 1 := by
    ext u
    constructor
    · rintro ⟨t, ⟨h0, h1⟩, rfl⟩
      refine ⟨by positivity, ?_⟩
      show t / (2 * Real.pi) ≤ 1
      rw [div_le_one (by positivity)]; linarith
    · rintro ⟨h0, h1⟩
      refine ⟨2 * Real.pi * u, ⟨by positivity, by nlinarith⟩, ?_⟩
      field_simp
  have e1 : ∫⁻ u in Ico (0 : ℝ) 1, k (2 * Real.pi * u) = ∫⁻ t in Ioc (0 : ℝ) (0 + 2 * Real.pi), ENNReal.ofReal (1 / (2 * Real.pi)) * k t := by
    rw [setLIntegral_congr (Ioo_ae_eq_Ico.symm.trans Ioo_ae_eq_Ioc), ← him]
    rw [lintegral_image_eq_lintegral_abs_deriv_mul measurableSet_Ioc (f := fun t : ℝ => t / (2 * Real.pi)) (f' := fun _ => 1 / (2 * Real.pi))]
    · refine setLIntegral_congr_fun measurableSet_Ioc fun t ht => ?_
      rw [abs_of_pos (by positivity), show 2 * Real.pi * (t / (2 * Real.pi)) = t by field_simp]
    · intro t _
      exact ((hasDerivAt_id t).div_const _).hasDerivWithinAt
    · intro a _ b _ h
      simp only at h
      field_simp at h
      exact h
  rw [e1, lintegral_const_mul' _ _ ENNReal.ofReal_ne_top]
  congr 1
  have f1 := isAddFundamentalDomain_Ioc (T := 2 * Real.pi) (by positivity) 0
  have f2 := isAddFundamentalDomain_Ioc (T := 2 * Real.pi) (by positivity) (-Real.pi)
  rw [f1.setLIntegral_eq f2 k, show -Real.pi + 2 * Real.pi = Real.pi by ring, setLIntegral_congr Ioo_ae_eq_Ioc.symm]
  rintro ⟨g, hg⟩ x
  obtain ⟨n, rfl⟩ := AddSubgroup.mem_zmultiples_iff.1 hg
  have hper : Function.Periodic k (2 * Real.pi) := hk
  show k (n • (2 * Real.pi) + x) = k x
  rw [add_comm]
  exact hper.zsmul n x

/-- the transformation sends the uniform law of the square in the law of two independent normal numbers -/
theorem map_boxMuller : (unifLaw.prod unifLaw).map boxMuller = (gaussianReal 0 1).prod (gaussianReal 0 1) := by
  refine Measure.ext_of_lintegral _ fun f hf => ?_
  rw [lintegral_map hf boxMuller_meas]
  have hpi := Real.pi_pos
  -- left side
  have hL : ∫⁻ u, f (boxMuller u) ∂(unifLaw.prod unifLaw) = ∫⁻ r in Ioi (0 : ℝ), ENNReal.ofReal (r * Real.exp (-(r ^ 2) / 2)) *
      (ENNReal.ofReal (1 / (2 * Real.pi)) * ∫⁻ t in Ioo (-Real.pi) Real.pi, f (r * Real.cos t, r * Real.sin t)) := by
    refine (lintegral_prod _ (hf.comp boxMuller_meas).aemeasurable).trans ?_
    unfold unifLaw
    rw [← lint_radius]
    refine setLIntegral_congr_fun measurableSet_Ico fun u _ => ?_
    rw [← lint_angle (fun t => f (radius u * Real.cos t, radius u * Real.sin t)) (fun x => by simp only [Real.cos_add_two_pi, Real.sin_add_two_pi])]
    rfl
  rw [hL]
  -- right side
  rw [gaussianReal_of_var_ne_zero _ one_ne_zero, prod_withDensity (measurable_gaussianPDF _ _) (measurable_gaussianPDF _ _)]
  have hd : Measurable fun z : ℝ × ℝ => gaussianPDF 0 1 z.1 * gaussianPDF 0 1 z.2 :=
    ((measurable_gaussianPDF 0 1).comp measurable_fst).mul ((measurable_gaussianPDF 0 1).comp measurable_snd)
  rw [lintegral_withDensity_eq_lintegral_mul _ hd hf, ← Measure.volume_eq_prod, ← lintegral_comp_polarCoord_symm]
  have ht : polarCoord.target = Ioi (0 : ℝ) ×ˢ Ioo (-Real.pi) Real.pi := rfl
  rw [ht, Measure.volume_eq_prod, ← Measure.prod_restrict, lintegral_prod]
  · refine setLIntegral_congr_fun measurableSet_Ioi fun r hr => ?_
    have hr : 0 < r := hr
    simp only [polarCoord_symm_apply, Pi.mul_apply, smul_eq_mul]
    rw [← lintegral_const_mul' _ _ ENNReal.ofReal_ne_top, ← lintegral_const_mul' _ _ ENNReal.ofReal_ne_top]
    refine lintegral_congr fun t => ?_
    rw [← mul_assoc, ← mul_assoc]
    congr 1
    unfold gaussianPDF gaussianPDFReal
    rw [← ENNReal.ofReal_mul (by positivity), ← ENNReal.ofReal_mul (by positivity), ← ENNReal.ofReal_mul hr.le]
    congr 1
    simp only [NNReal.coe_one, mul_one, sub_zero]
    have hs : (Real.sqrt (2 * Real.pi))⁻¹ * (Real.sqrt (2 * Real.pi))⁻¹ = 1 / (2 * Real.pi) := by
      rw [← mul_inv, Real.mul_self_sqrt (by positivity), one_div]
    have he : Real.exp (-(r * Real.cos t) ^ 2 / 2) * Real.exp (-(r * Real.sin t) ^ 2 / 2) = Real.exp (-(r ^ 2) / 2) := by
      rw [← Real.exp_add]
      congr 1
      have := Real.sin_sq_add_cos_sq t
      linear_combination (-(r ^ 2) / 2) * this
    linear_combination (-r * Real.exp (-(r ^ 2) / 2)) * hs - r * (Real.sqrt (2 * Real.pi))⁻¹ * (Real.sqrt (2 * Real.pi))⁻¹ * he
  · have hm : Measurable fun p : ℝ × ℝ => polarCoord.symm p := by
      have : (fun p : ℝ × ℝ => polarCoord.symm p) = fun p : ℝ × ℝ => (p.1 * Real.cos p.2, p.1 * Real.sin p.2) := by
        funext p; exact polarCoord_symm_apply p
      rw [this]; fun_prop
    exact ((ENNReal.measurable_ofReal.comp measurable_fst).smul ((hd.mul hf).comp hm)).aemeasurable

end Nissa.BoxM
