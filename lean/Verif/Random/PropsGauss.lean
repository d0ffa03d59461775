import Verif.Random.Gauss
import Verif.Random.PropsBoxMuller
import Verif.Random.PropsSources
import Verif.Hmc.PropsGaugeForce3
import Mathlib.MeasureTheory.Constructions.Pi

/-! # C58: laws of the random numbers, momenta -/

set_option linter.all false

namespace Nissa.Gauss
open Nissa.Lx Nissa.Sten
open Nissa.Ran2 (Gen getUnif drawN Valid)
open Nissa.Su3f (M3)
open Nissa.Gauge (Quad)
open Nissa.BoxM MeasureTheory ProbabilityTheory Matrix

/-! ### laws -/

/-- the variance of the numbers of width `sig`: `(sig*0.7071...)²` -/
noncomputable def var (sig : ℝ) : NNReal := Real.toNNReal ((sig * 0.707106781186547) ^ 2)

theorem affine_law (a m : ℝ) : (gaussianReal 0 1).map (fun x => x * a + m) = gaussianReal m (Real.toNNReal (a ^ 2)) := by
  have h : (fun x : ℝ => x * a + m) = (fun x => x + m) ∘ (fun x => a * x) := by funext x; simp [mul_comm]
  rw [h, ← Measure.map_map (by fun_prop) (by fun_prop), gaussianReal_map_const_mul, gaussianReal_map_add_const]
  congr 1
  · ring
  · rw [mul_one]
    ext
    simp [Real.coe_toNNReal _ (sq_nonneg a)]

/-- C58: the complex numbers drawn are gaussian: for uniform independent draws, real and imaginary part are independent, gaussian around the
components of `ave`, both of variance `(sig*0.7071...)²`. -/
theorem C58_complex_law (ave : ℂ) (sig : ℝ) :
    (unifLaw.prod unifLaw).map (fun u => ((gaussOf u.1 u.2 ave sig).re, (gaussOf u.1 u.2 ave sig).im)) =
      (gaussianReal ave.re (var sig)).prod (gaussianReal ave.im (var sig)) ∧
    |2 * (var sig : ℝ) - sig ^ 2| ≤ 1 / 10 ^ 14 * sig ^ 2 := by
  constructor
  · have h : (fun u : ℝ × ℝ => ((gaussOf u.1 u.2 ave sig).re, (gaussOf u.1 u.2 ave sig).im)) =
        Prod.map (fun x => x * (sig * 0.707106781186547) + ave.re) (fun x => x * (sig * 0.707106781186547) + ave.im) ∘ boxMuller := by
      funext u
      rfl
    rw [h, ← Measure.map_map (by fun_prop) boxMuller_meas, map_boxMuller, ← Measure.map_prod_map _ _ (by fun_prop) (by fun_prop), affine_law, affine_law]
    rfl
  · unfold var
    rw [Real.coe_toNNReal _ (sq_nonneg _)]
    rw [show 2 * (sig * 0.707106781186547) ^ 2 - sig ^ 2 = (2 * 0.707106781186547 ^ 2 - 1) * sig ^ 2 by ring, abs_mul, abs_of_nonneg (sq_nonneg sig)]
    refine mul_le_mul_of_nonneg_right ?_ (sq_nonneg _)
    rw [abs_le]
    constructor <;> norm_num

/-- C58: `rnd_get_gauss_double` is gaussian of average `ave` and variance `sig²` -/
theorem C58_double_law (ave sig : ℝ) :
    (unifLaw.prod unifLaw).map (fun u => gaussDoubleOf u.1 u.2 ave sig) = gaussianReal ave (Real.toNNReal (sig ^ 2)) := by
  have h : (fun u : ℝ × ℝ => gaussDoubleOf u.1 u.2 ave sig) = (fun x => x * sig + ave) ∘ Prod.fst ∘ boxMuller := by
    funext u; rfl
  rw [h, ← Measure.map_map (by fun_prop) (measurable_fst.comp boxMuller_meas), ← Measure.map_map measurable_fst boxMuller_meas, map_boxMuller, Measure.map_fst_prod,
    measure_univ, one_smul, affine_law]

/-- C58: the eight numbers of a momentum are independent and gaussian of average 0 -/
theorem C58_momentum_law (sig : ℝ) :
    (Measure.pi fun _ : Fin 4 => unifLaw.prod unifLaw).map (fun u => eight fun i => gaussOf (u i).1 (u i).2 0 sig) = Measure.pi fun _ : Fin 8 => gaussianReal 0 (var sig) := by
  have hm : Measurable fun u : ℝ × ℝ => ((gaussOf u.1 u.2 0 sig).re, (gaussOf u.1 u.2 0 sig).im) := by
    have : (fun u : ℝ × ℝ => ((gaussOf u.1 u.2 0 sig).re, (gaussOf u.1 u.2 0 sig).im)) =
        Prod.map (fun x => x * (sig * 0.707106781186547) + (0 : ℂ).re) (fun x => x * (sig * 0.707106781186547) + (0 : ℂ).im) ∘ boxMuller := by
      funext u; rfl
    rw [this]
    have := boxMuller_meas
    fun_prop
  have hp := measurePreserving_pi (fun _ : Fin 4 => unifLaw.prod unifLaw) (fun _ : Fin 4 => (gaussianReal 0 (var sig)).prod (gaussianReal 0 (var sig)))
    (f := fun _ u => ((gaussOf u.1 u.2 0 sig).re, (gaussOf u.1 u.2 0 sig).im)) (fun _ => ⟨hm, (C58_complex_law 0 sig).1⟩)
  set F : (Fin 4 → ℝ × ℝ) → Fin 8 → ℝ := fun w k => if k.val % 2 = 0 then (w ⟨k.val / 2, by omega⟩).1 else (w ⟨k.val / 2, by omega⟩).2 with hF
  have hFm : Measurable F := by
    refine measurable_pi_lambda _ fun k => ?_
    simp only [hF]
    split
    · exact (measurable_pi_apply _).fst
    · exact (measurable_pi_apply _).snd
  have he : (fun u : Fin 4 → ℝ × ℝ => eight fun i => gaussOf (u i).1 (u i).2 0 sig) =
      F ∘ (fun u i => ((gaussOf (u i).1 (u i).2 0 sig).re, (gaussOf (u i).1 (u i).2 0 sig).im)) := by
    funext u k
    simp only [eight, hF, Function.comp]
  rw [he, ← Measure.map_map hFm hp.measurable]
  have hmap := hp.map_eq
  refine (congrArg (Measure.map F) hmap).trans ?_
  refine (Measure.pi_eq fun s hs => ?_).symm
  rw [Measure.map_apply hFm (MeasurableSet.univ_pi hs)]
  have hset : F ⁻¹' (Set.univ.pi s) = Set.univ.pi (fun i : Fin 4 => s ⟨2 * i.val, by omega⟩ ×ˢ s ⟨2 * i.val + 1, by omega⟩) := by
    ext w
    simp only [Set.mem_preimage, Set.mem_univ_pi, Set.mem_prod]
    constructor
    · intro h i
      have h0 := h ⟨2 * i.val, by omega⟩
      have h1 := h ⟨2 * i.val + 1, by omega⟩
      simp only [hF] at h0 h1
      rw [if_pos (by omega)] at h0
      rw [if_neg (by omega)] at h1
      have e0 : (⟨2 * i.val / 2, by omega⟩ : Fin 4) = i := Fin.ext (by simp)
      have e1 : (⟨(2 * i.val + 1) / 2, by omega⟩ : Fin 4) = i := Fin.ext (by simp; omega)
      rw [e0] at h0; rw [e1] at h1
      exact ⟨h0, h1⟩
    · intro h k
      obtain ⟨h0, h1⟩ := h ⟨k.val / 2, by omega⟩
      simp only [hF]
      split
      · rename_i hk
        have : (⟨2 * (k.val / 2), by omega⟩ : Fin 8) = k := Fin.ext (by simp; omega)
        rwa [this] at h0
      · have : (⟨2 * (k.val / 2) + 1, by omega⟩ : Fin 8) = k := Fin.ext (by simp; omega)
        rwa [this] at h1
  rw [hset, Measure.pi_pi, Fin.prod_univ_four, Fin.prod_univ_eight]
  simp only [Measure.prod_prod]
  simp only [Fin.val_zero, Fin.val_one, Fin.val_two]
  have e3 : ((3 : Fin 4).val) = 3 := rfl
  simp only [e3]
  ring_nf
  rfl

/-! ### the matrix -/

/-- C58: the momentum is hermitian, with kinetic energy equal to the sum of the squares of the eight numbers but for the rounding of the
constants, which also leaves a trace of `2·10⁻¹⁵` times the last number. -/
theorem C58_momentum_matrix (r : Fin 8 → ℝ) :
    (hermOf r)ᴴ = hermOf r ∧ (hermOf r).trace = ((2 / 10 ^ 15 * r 7 : ℝ) : ℂ) ∧
    |1 / 2 * (hermOf r * (hermOf r)ᴴ).trace.re - ∑ a, r a ^ 2| ≤ 1 / 10 ^ 14 * r 7 ^ 2 := by
  refine ⟨?_, ?_, ?_⟩
  · ext i j
    fin_cases i <;> fin_cases j <;> apply Complex.ext <;> simp [hermOf]
  · apply Complex.ext
    · rw [Complex.ofReal_re]; simp [hermOf, Matrix.trace, Fin.sum_univ_three]; ring
    · rw [Complex.ofReal_im]; simp [hermOf, Matrix.trace, Fin.sum_univ_three]
  · have e : 1 / 2 * (hermOf r * (hermOf r)ᴴ).trace.re - ∑ a, r a ^ 2 = (0.577350269189626 ^ 2 + 1.15470053837925 ^ 2 / 2 - 1) * r 7 ^ 2 := by
      simp only [Matrix.trace, Matrix.diag_apply, Matrix.mul_apply, Matrix.conjTranspose_apply, Fin.sum_univ_three, Fin.sum_univ_eight]
      simp [hermOf]
      ring
    rw [e, abs_mul, abs_of_nonneg (sq_nonneg (r 7))]
    refine mul_le_mul_of_nonneg_right ?_ (sq_nonneg _)
    rw [abs_le]
    constructor <;> norm_num

/-- C58: so the momenta drawn are not exactly traceless (defect of the constants) -/
theorem C58_violated_traceless : ∃ r, (hermOf r).trace ≠ 0 := by
  refine ⟨fun _ => 1, ?_⟩
  rw [(C58_momentum_matrix _).2.1]
  norm_num

end Nissa.Gauss
