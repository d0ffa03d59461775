import Verif.Random.PropsGauss2
import Verif.Color.PropsSu3Fun
import Mathlib.MeasureTheory.Integral.Pi
import Mathlib.MeasureTheory.Constructions.Pi
import Mathlib.Analysis.SpecialFunctions.Integrals.Basic

/-! # Random links and roots of unity -/

set_option linter.all false

namespace Nissa.Gauss
open Nissa.Su3f (M3 IsSU3)
open Nissa.BoxM (unifLaw)
open MeasureTheory Matrix Complex Set

/-! ### Roots of unity -/

/-- C58: `rnd_get_ZN` gives each of the `N` roots of unity with the same probability -/
theorem C58_roots (N : Nat) (hN : 0 < N) (k : Nat) (hk : k < N) :
    unifLaw {u | znOf (N * u) N = Complex.exp (2 * Real.pi * I * (k / N : ℂ))} = ENNReal.ofReal (1 / N) ∧
    (∀ u : ℝ, znOf u N ^ N = 1) := by
  have hN' : (0 : ℝ) < N := by exact_mod_cast hN
  have hz : ∀ u : ℝ, ∃ m : Int, znOf u N = Complex.exp (2 * Real.pi * I * (m / N : ℂ)) ∧ (0 ≤ u → m = ⌊u⌋) := by
    intro u
    refine ⟨if 0 ≤ u then ⌊u⌋ else ⌈u⌉, ?_, fun h => by rw [if_pos h]⟩
    unfold znOf
    generalize (if 0 ≤ u then ⌊u⌋ else ⌈u⌉) = m
    rw [show (2 * Real.pi * I * (m / N : ℂ) : ℂ) = ((2 * Real.pi * m / N : ℝ) : ℂ) * I by push_cast; ring, Complex.exp_mul_I,
      ← Complex.ofReal_cos, ← Complex.ofReal_sin]
    apply Complex.ext
    · simp only [Complex.add_re, Complex.mul_re, Complex.ofReal_re, Complex.ofReal_im, Complex.I_re, Complex.I_im]; ring
    · simp only [Complex.add_im, Complex.mul_im, Complex.ofReal_re, Complex.ofReal_im, Complex.I_re, Complex.I_im]; ring
  refine ⟨?_, ?_⟩
  · have hs : {u : ℝ | znOf (N * u) N = Complex.exp (2 * Real.pi * I * (k / N : ℂ))} ∩ Ico 0 1 = Ico ((k : ℝ) / N) ((k + 1) / N) := by
      ext u
      simp only [mem_inter_iff, mem_setOf_eq, mem_Ico]
      constructor
      · rintro ⟨h, h0, h1⟩
        obtain ⟨m, hm, hf⟩ := hz (N * u)
        have h0' : 0 ≤ (N : ℝ) * u := by positivity
        have hm' := hf h0'
        rw [hm, Complex.exp_eq_exp_iff_exists_int] at h
        obtain ⟨n, hn⟩ := h
        have hmk : (m : ℤ) = k + n * N := by
          have hpi : (2 * Real.pi * I : ℂ) ≠ 0 := Complex.two_pi_I_ne_zero
          have hc : (m / N : ℂ) = k / N + n := by
            apply mul_left_cancel₀ hpi
            rw [hn]; ring
          have hNc : (N : ℂ) ≠ 0 := by exact_mod_cast hN.ne'
          field_simp at hc
          have hc' : m = k + N * n := by exact_mod_cast hc
          rw [hc', mul_comm]
        have hm0 : 0 ≤ m := by rw [hm']; exact Int.floor_nonneg.2 h0'
        have hm1 : m < N := by
          rw [hm']
          apply Int.floor_lt.2
          push_cast
          nlinarith
        have hn0 : n = 0 := by
          by_contra hne
          rcases lt_or_gt_of_ne hne with h | h
          · have : n * N ≤ -1 * N := mul_le_mul_of_nonneg_right (by omega) (by positivity)
            omega
          · have : 1 * (N : ℤ) ≤ n * N := mul_le_mul_of_nonneg_right (by omega) (by positivity)
            omega
        rw [hn0, zero_mul, add_zero, hm'] at hmk
        rw [Int.floor_eq_iff] at hmk
        push_cast at hmk
        rw [div_le_iff₀ hN', lt_div_iff₀ hN']
        constructor <;> nlinarith [hmk.1, hmk.2]
      · rintro ⟨h0, h1⟩
        rw [div_le_iff₀ hN'] at h0
        rw [lt_div_iff₀ hN'] at h1
        have hkr : (k : ℝ) + 1 ≤ N := by exact_mod_cast hk
        have hk0 : (0 : ℝ) ≤ k := by positivity
        have hu0 : 0 ≤ u := by
          by_contra h
          push Not at h
          nlinarith
        refine ⟨?_, hu0, by by_contra h; push Not at h; nlinarith⟩
        obtain ⟨m, hm, hf⟩ := hz (N * u)
        rw [hm, hf (by positivity)]
        have : ⌊(N : ℝ) * u⌋ = (k : ℤ) := by
          rw [Int.floor_eq_iff]; push_cast
          constructor <;> nlinarith
        rw [this]; simp
    rw [unifLaw, Measure.restrict_apply' measurableSet_Ico, hs, Real.volume_Ico]
    congr 1; field_simp; ring
  · intro u
    obtain ⟨m, hm, -⟩ := hz u
    rw [hm, ← Complex.exp_nat_mul, Complex.exp_eq_one_iff]
    refine ⟨m, ?_⟩
    have hNc : (N : ℂ) ≠ 0 := by exact_mod_cast hN.ne'
    field_simp

/-! ### Links -/

/-- the element as a matrix -/
def subMat (i1 i2 : Fin 3) (u0 u1 u2 u3 : ℝ) : M3 :=
  let u_l : M3 := 1
  let u_l := u_l.updateRow i1 (Function.update (u_l i1) i1 ⟨u0, u3⟩)
  let u_l := u_l.updateRow i1 (Function.update (u_l i1) i2 ⟨u2, u1⟩)
  let u_l := u_l.updateRow i2 (Function.update (u_l i2) i1 ⟨-u2, u1⟩)
  u_l.updateRow i2 (Function.update (u_l i2) i2 ⟨u0, -u3⟩)

theorem subMat01 (u0 u1 u2 u3 : ℝ) : subMat 0 1 u0 u1 u2 u3 = !![⟨u0, u3⟩, ⟨u2, u1⟩, 0; ⟨-u2, u1⟩, ⟨u0, -u3⟩, 0; 0, 0, 1] := by
  ext i j
  fin_cases i <;> fin_cases j <;> simp [subMat, Matrix.updateRow_apply, Function.update_apply]

theorem subMat02 (u0 u1 u2 u3 : ℝ) : subMat 0 2 u0 u1 u2 u3 = !![⟨u0, u3⟩, 0, ⟨u2, u1⟩; 0, 1, 0; ⟨-u2, u1⟩, 0, ⟨u0, -u3⟩] := by
  ext i j
  fin_cases i <;> fin_cases j <;> simp [subMat, Matrix.updateRow_apply, Function.update_apply]

theorem subMat12 (u0 u1 u2 u3 : ℝ) : subMat 1 2 u0 u1 u2 u3 = !![1, 0, 0; 0, ⟨u0, u3⟩, ⟨u2, u1⟩; 0, ⟨-u2, u1⟩, ⟨u0, -u3⟩] := by
  ext i j
  fin_cases i <;> fin_cases j <;> simp [subMat, Matrix.updateRow_apply, Function.update_apply]

theorem subMat_su3 (i1 i2 : Fin 3) (h : i1 < i2) (u0 u1 u2 u3 : ℝ) (key : u0 * u0 + u3 * u3 + u1 * u1 + u2 * u2 = 1) : IsSU3 (subMat i1 i2 u0 u1 u2 u3) := by
  have hh : (i1 = 0 ∧ i2 = 1) ∨ (i1 = 0 ∧ i2 = 2) ∨ (i1 = 1 ∧ i2 = 2) := by revert i1 i2; decide
  rcases hh with ⟨rfl, rfl⟩ | ⟨rfl, rfl⟩ | ⟨rfl, rfl⟩
  · rw [subMat01]
    constructor
    · ext i j
      fin_cases i <;> fin_cases j <;> simp [Matrix.mul_apply, Fin.sum_univ_three, Complex.ext_iff] <;>
        (try constructor) <;> first | linear_combination key | ring
    · rw [Matrix.det_fin_three]
      simp [Complex.ext_iff]
      constructor <;> first | linear_combination key | ring
  · rw [subMat02]
    constructor
    · ext i j
      fin_cases i <;> fin_cases j <;> simp [Matrix.mul_apply, Fin.sum_univ_three, Complex.ext_iff] <;>
        (try constructor) <;> first | linear_combination key | ring
    · rw [Matrix.det_fin_three]
      simp [Complex.ext_iff]
      constructor <;> first | linear_combination key | ring
  · rw [subMat12]
    constructor
    · ext i j
      fin_cases i <;> fin_cases j <;> simp [Matrix.mul_apply, Fin.sum_univ_three, Complex.ext_iff] <;>
        (try constructor) <;> first | linear_combination key | ring
    · rw [Matrix.det_fin_three]
      simp [Complex.ext_iff]
      constructor <;> first | linear_combination key | ring

theorem sub_eq (i1 i2 : Fin 3) (c : Fin 3 → ℝ) : subgroupOf i1 i2 c = subMat i1 i2 (c 0 * 2 - 1)
    (Real.sqrt (1 - (c 0 * 2 - 1) * (c 0 * 2 - 1)) * Real.sqrt (1 - (c 2 * 2 - 1) * (c 2 * 2 - 1)) * Real.cos (c 1 * 2 * Real.pi))
    (Real.sqrt (1 - (c 0 * 2 - 1) * (c 0 * 2 - 1)) * Real.sqrt (1 - (c 2 * 2 - 1) * (c 2 * 2 - 1)) * Real.sin (c 1 * 2 * Real.pi))
    (Real.sqrt (1 - (c 0 * 2 - 1) * (c 0 * 2 - 1)) * (c 2 * 2 - 1)) := rfl

theorem sub_unitary (i1 i2 : Fin 3) (h : i1 < i2) (c : Fin 3 → ℝ) (hc : ∀ i, 0 ≤ c i ∧ c i ≤ 1) : IsSU3 (subgroupOf i1 i2 c) := by
  have h0 : 0 ≤ 1 - (c 0 * 2 - 1) * (c 0 * 2 - 1) := by nlinarith [hc 0]
  have h2 : 0 ≤ 1 - (c 2 * 2 - 1) * (c 2 * 2 - 1) := by nlinarith [hc 2]
  have s0 := Real.mul_self_sqrt h0
  have s2 := Real.mul_self_sqrt h2
  have sc := Real.sin_sq_add_cos_sq (c 1 * 2 * Real.pi)
  rw [sub_eq]
  apply subMat_su3 _ _ h
  generalize Real.sqrt (1 - (c 0 * 2 - 1) * (c 0 * 2 - 1)) = al at *
  generalize Real.sqrt (1 - (c 2 * 2 - 1) * (c 2 * 2 - 1)) = st at *
  generalize Real.sin (c 1 * 2 * Real.pi) = sp at *
  generalize Real.cos (c 1 * 2 * Real.pi) = cp at *
  generalize (c 0 * 2 - 1) = u0 at *
  generalize (c 2 * 2 - 1) = ct at *
  have : u0 * u0 + (al * ct) * (al * ct) + (al * st * cp) * (al * st * cp) + (al * st * sp) * (al * st * sp) =
      u0 * u0 + (al * al) * (ct * ct + (st * st) * (sp ^ 2 + cp ^ 2)) := by ring
  rw [this, s0, s2, sc]; ring

theorem su3_mul {U V : M3} (hU : IsSU3 U) (hV : IsSU3 V) : IsSU3 (U * V) := by
  refine ⟨?_, by rw [Matrix.det_mul, hU.2, hV.2, mul_one]⟩
  rw [conjTranspose_mul, Matrix.mul_assoc, ← Matrix.mul_assoc V, hV.1, Matrix.one_mul, hU.1]

/-- C58: the random links are in SU(3), whatever the nine numbers drawn -/
theorem C58_link_su3 (c : Fin 3 → Fin 3 → ℝ) (hc : ∀ i j, 0 ≤ c i j ∧ c i j ≤ 1) : IsSU3 (su3_put_to_rnd c) := by
  unfold su3_put_to_rnd
  simp only [Matrix.mul_one]
  exact su3_mul (sub_unitary 1 2 (by decide) _ (hc 2)) (su3_mul (sub_unitary 0 2 (by decide) _ (hc 1)) (sub_unitary 0 1 (by decide) _ (hc 0)))

/-- nine independent uniform numbers -/
noncomputable def nine : Measure (Fin 3 → Fin 3 → ℝ) := Measure.pi fun _ => Measure.pi fun _ => unifLaw

instance : IsProbabilityMeasure nine := by unfold nine; infer_instance

theorem nine_ae : ∀ᵐ c ∂nine, ∀ i j, 0 ≤ c i j ∧ c i j ≤ 1 := by
  have h1 : ∀ᵐ u ∂unifLaw, 0 ≤ u ∧ u ≤ 1 := by
    unfold unifLaw
    rw [ae_restrict_iff' measurableSet_Ico]
    exact Filter.Eventually.of_forall fun u hu => ⟨hu.1, hu.2.le⟩
  have h2 : ∀ᵐ c ∂(Measure.pi fun _ : Fin 3 => unifLaw), ∀ j, 0 ≤ c j ∧ c j ≤ 1 := by
    rw [ae_all_iff]
    intro j
    exact (Measure.tendsto_eval_ae_ae (μ := fun _ : Fin 3 => unifLaw) (i := j)).eventually h1
  unfold nine
  rw [ae_all_iff]
  intro i
  exact (Measure.tendsto_eval_ae_ae (μ := fun _ : Fin 3 => Measure.pi fun _ : Fin 3 => unifLaw) (i := i)).eventually h2

theorem int_one_sub : ∫ u, (1 - (u * 2 - 1) ^ 2) ∂unifLaw = 2 / 3 := by
  unfold unifLaw
  rw [integral_Ico_eq_integral_Ioc, ← intervalIntegral.integral_of_le zero_le_one]
  have h : ∀ u : ℝ, 1 - (u * 2 - 1) ^ 2 = 4 * u - 4 * u ^ 2 := fun u => by ring
  simp only [h]
  rw [intervalIntegral.integral_sub (Continuous.intervalIntegrable (by fun_prop) _ _) (Continuous.intervalIntegrable (by fun_prop) _ _), intervalIntegral.integral_const_mul, intervalIntegral.integral_const_mul, integral_pow, integral_id]
  norm_num

/-- size squared of the first entry of an element of a subgroup -/
noncomputable def F (c : Fin 3 → ℝ) : ℝ := 1 - (1 - (c 0 * 2 - 1) ^ 2) * (1 - (c 2 * 2 - 1) ^ 2)

theorem F_int : ∫ c, F c ∂(Measure.pi fun _ : Fin 3 => unifLaw) = 5 / 9 := by
  have hp : ∀ c : Fin 3 → ℝ, (1 - (c 0 * 2 - 1) ^ 2) * (1 - (c 2 * 2 - 1) ^ 2) = ∏ i, (![fun u => 1 - (u * 2 - 1) ^ 2, fun _ => 1, fun u => 1 - (u * 2 - 1) ^ 2] : Fin 3 → ℝ → ℝ) i (c i) := by
    intro c
    simp [Fin.prod_univ_three]
  have hi : Integrable (fun u : ℝ => 1 - (u * 2 - 1) ^ 2) unifLaw := by
    unfold unifLaw
    exact (Continuous.integrableOn_Icc (by fun_prop)).mono_set Ico_subset_Icc_self
  unfold F
  simp only [hp]
  rw [integral_sub (integrable_const _), integral_fintype_prod_eq_prod]
  · simp [Fin.prod_univ_three, int_one_sub]
    norm_num
  · apply Integrable.fintype_prod
    intro i
    fin_cases i
    · exact hi
    · exact integrable_const _
    · exact hi

theorem sub_entry (c : Fin 3 → ℝ) (hc : ∀ i, 0 ≤ c i ∧ c i ≤ 1) (j : Fin 3) (hj : 0 < j) : ‖subgroupOf 0 j c 0 0‖ ^ 2 = F c := by
  have h0 : 0 ≤ 1 - (c 0 * 2 - 1) * (c 0 * 2 - 1) := by nlinarith [hc 0]
  have s0 := Real.mul_self_sqrt h0
  have e : subgroupOf 0 j c 0 0 = ⟨c 0 * 2 - 1, Real.sqrt (1 - (c 0 * 2 - 1) * (c 0 * 2 - 1)) * (c 2 * 2 - 1)⟩ := by
    have : j = 1 ∨ j = 2 := by revert j; decide
    rw [sub_eq]
    rcases this with rfl | rfl
    · rw [subMat01]; rfl
    · rw [subMat02]; rfl
  rw [e, ← Complex.normSq_eq_norm_sq, Complex.normSq_mk]
  unfold F
  linear_combination (c 2 * 2 - 1) ^ 2 * s0

theorem link_entry (c : Fin 3 → Fin 3 → ℝ) : su3_put_to_rnd c 0 0 = subgroupOf 0 2 (c 1) 0 0 * subgroupOf 0 1 (c 0) 0 0 := by
  unfold su3_put_to_rnd
  simp only [Matrix.mul_one]
  rw [sub_eq 1, sub_eq 0 2, sub_eq 0 1, subMat12, subMat02, subMat01]
  simp [Matrix.mul_apply, Fin.sum_univ_three]

/-- the square of the first entry has average 25/81 -/
theorem link_avg : ∫ c, ‖su3_put_to_rnd c 0 0‖ ^ 2 ∂nine = 25 / 81 := by
  have h : ∀ᵐ c ∂nine, ‖su3_put_to_rnd c 0 0‖ ^ 2 = ∏ i, (![F, F, fun _ => 1] : Fin 3 → (Fin 3 → ℝ) → ℝ) i (c i) := by
    filter_upwards [nine_ae] with c hc
    rw [link_entry, norm_mul, mul_pow, sub_entry _ (hc 1) 2 (by decide), sub_entry _ (hc 0) 1 (by decide)]
    simp [Fin.prod_univ_three, mul_comm]
  rw [integral_congr_ae h]
  unfold nine
  rw [integral_fintype_prod_eq_prod]
  simp [Fin.prod_univ_three, F_int]
  norm_num

theorem sub_cont (i1 i2 : Fin 3) (h : i1 < i2) (i j : Fin 3) : Continuous fun c : Fin 3 → ℝ => subgroupOf i1 i2 c i j := by
  have hre : ∀ f g : (Fin 3 → ℝ) → ℝ, Continuous f → Continuous g → Continuous fun c => (⟨f c, g c⟩ : ℂ) := by
    intro f g hf hg
    have : (fun c => (⟨f c, g c⟩ : ℂ)) = fun c => (f c : ℂ) + (g c : ℂ) * I := by
      funext c; apply Complex.ext <;> simp
    rw [this]; fun_prop
  have hh : (i1 = 0 ∧ i2 = 1) ∨ (i1 = 0 ∧ i2 = 2) ∨ (i1 = 1 ∧ i2 = 2) := by revert i1 i2; decide
  rcases hh with ⟨rfl, rfl⟩ | ⟨rfl, rfl⟩ | ⟨rfl, rfl⟩
  · simp only [sub_eq, subMat01]
    fin_cases i <;> fin_cases j <;> first | exact continuous_const | exact hre _ _ (by fun_prop) (by fun_prop)
  · simp only [sub_eq, subMat02]
    fin_cases i <;> fin_cases j <;> first | exact continuous_const | exact hre _ _ (by fun_prop) (by fun_prop)
  · simp only [sub_eq, subMat12]
    fin_cases i <;> fin_cases j <;> first | exact continuous_const | exact hre _ _ (by fun_prop) (by fun_prop)

theorem link_cont (i j : Fin 3) : Continuous fun c => su3_put_to_rnd c i j := by
  unfold su3_put_to_rnd
  simp only [Matrix.mul_one, Matrix.mul_apply, Fin.sum_univ_three]
  have h1 := fun i j => (sub_cont 0 1 (by decide) i j).comp (continuous_apply (0 : Fin 3) (A := fun _ : Fin 3 => Fin 3 → ℝ))
  have h2 := fun i j => (sub_cont 0 2 (by decide) i j).comp (continuous_apply (1 : Fin 3) (A := fun _ : Fin 3 => Fin 3 → ℝ))
  have h3 := fun i j => (sub_cont 1 2 (by decide) i j).comp (continuous_apply (2 : Fin 3) (A := fun _ : Fin 3 => Fin 3 → ℝ))
  simp only [Function.comp_def] at h1 h2 h3
  have h1' := fun i j => (h1 i j)
  refine Continuous.add (Continuous.add ?_ ?_) ?_ <;> refine (h3 _ _).mul ?_ <;>
    exact (((h2 _ _).mul (h1 _ _)).add ((h2 _ _).mul (h1 _ _))).add ((h2 _ _).mul (h1 _ _))

/-- the column of a matrix of SU(3) has size 1 -/
theorem col_one {U : M3} (h : IsSU3 U) : ‖U 0 0‖ ^ 2 + ‖U 1 0‖ ^ 2 + ‖U 2 0‖ ^ 2 = 1 := by
  have h' : Uᴴ * U = 1 := mul_eq_one_comm.1 h.1
  have e := congrFun (congrFun h' 0) 0
  simp only [Matrix.mul_apply, Fin.sum_univ_three, conjTranspose_apply, Matrix.one_apply_eq, Complex.star_def, ← Complex.normSq_eq_conj_mul_self] at e
  simp only [← Complex.normSq_eq_norm_sq]
  exact_mod_cast e

/-- C58, violated: the random links do not follow the invariant measure of SU(3): there is a matrix `V` of SU(3) for which `V*U` and `U` have
different laws (the averages of the size squared of the first entry differ: it is 25/81 for `U`, while the invariant measure requires 1/3). -/
theorem C58_violated_haar : ∫ c, ‖su3_put_to_rnd c 0 0‖ ^ 2 ∂nine = 25 / 81 ∧
    ∃ V, IsSU3 V ∧ ∫ c, ‖(V * su3_put_to_rnd c) 0 0‖ ^ 2 ∂nine ≠ ∫ c, ‖su3_put_to_rnd c 0 0‖ ^ 2 ∂nine := by
  refine ⟨link_avg, ?_⟩
  by_contra hne
  push Not at hne
  have hint : ∀ i, Integrable (fun c => ‖su3_put_to_rnd c i 0‖ ^ 2) nine := by
    intro i
    refine Integrable.of_bound (C := 1) ((link_cont i 0).norm.pow 2).aestronglyMeasurable ?_
    filter_upwards [nine_ae] with c hc
    have := col_one (C58_link_su3 c hc)
    rw [Real.norm_of_nonneg (by positivity)]
    fin_cases i <;> simp only [Fin.zero_eta, Fin.mk_one, Fin.reduceFinMk] <;>
      nlinarith [sq_nonneg ‖su3_put_to_rnd c 0 0‖, sq_nonneg ‖su3_put_to_rnd c 1 0‖, sq_nonneg ‖su3_put_to_rnd c 2 0‖]
  have e1 := hne !![0, 1, 0; 0, 0, 1; 1, 0, 0] (by
    constructor
    · ext i j; fin_cases i <;> fin_cases j <;> simp [Matrix.mul_apply, Fin.sum_univ_three]
    · simp [Matrix.det_fin_three])
  have e2 := hne !![0, 0, 1; 1, 0, 0; 0, 1, 0] (by
    constructor
    · ext i j; fin_cases i <;> fin_cases j <;> simp [Matrix.mul_apply, Fin.sum_univ_three]
    · simp [Matrix.det_fin_three])
  simp only [Matrix.mul_apply, Fin.sum_univ_three, Matrix.of_apply, Matrix.cons_val', Matrix.cons_val_zero, Matrix.cons_val_one, Matrix.cons_val, zero_mul, one_mul, zero_add, add_zero] at e1 e2
  have htot : ∫ c, (‖su3_put_to_rnd c 0 0‖ ^ 2 + ‖su3_put_to_rnd c 1 0‖ ^ 2 + ‖su3_put_to_rnd c 2 0‖ ^ 2) ∂nine = 1 := by
    have : ∀ᵐ c ∂nine, ‖su3_put_to_rnd c 0 0‖ ^ 2 + ‖su3_put_to_rnd c 1 0‖ ^ 2 + ‖su3_put_to_rnd c 2 0‖ ^ 2 = 1 := by
      filter_upwards [nine_ae] with c hc
      exact col_one (C58_link_su3 c hc)
    rw [integral_congr_ae this]
    simp
  have h01 : Integrable (fun c => ‖su3_put_to_rnd c 0 0‖ ^ 2 + ‖su3_put_to_rnd c 1 0‖ ^ 2) nine := (hint 0).add (hint 1)
  rw [integral_add h01 (hint 2), integral_add (hint 0) (hint 1), e1, e2, link_avg] at htot
  norm_num at htot

end Nissa.Gauss
