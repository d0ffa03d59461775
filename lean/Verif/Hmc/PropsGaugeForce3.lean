import Verif.Hmc.PropsGaugeForce2
import Mathlib.Tactic.NormNum.Basic

/-! # The steps of the evolution -/

set_option linter.all false

namespace Nissa.GForce
open Nissa.Lx Nissa.Sten Nissa.Su3f Nissa.Gauge Nissa.Paths Nissa.LSm Nissa.Stap Nissa.EoP Matrix Complex

noncomputable section

theorem ofReal_diff {f : ℝ → ℝ} {t : ℝ} (h : DifferentiableAt ℝ f t) : DifferentiableAt ℝ (fun s => ((f s : ℝ) : ℂ)) t :=
  Complex.ofRealCLM.differentiableAt.comp t h

/-- rest of the three series after the terms of order 1, with a factor `t^2` put in evidence -/
def ser0 (c0 c t : ℝ) : ℂ := ((-(t ^ 4 * c0 ^ 2) / 720 : ℝ) : ℂ) + ((-t * c0 * (1 - (t ^ 2 * c) * (1 - (t ^ 2 * c) / 42) / 20) / 6 : ℝ) : ℂ) * I
def ser1 (c0 c t : ℝ) : ℂ := ((t ^ 2 * c0 * (1 - (t ^ 2 * c) * (1 - 3 * (t ^ 2 * c) / 112) / 15) / 24 : ℝ) : ℂ) +
  ((-(t * c) * (1 - (t ^ 2 * c) * (1 - (t ^ 2 * c) / 42) / 20) / 6 - t ^ 5 * c0 ^ 2 / 5040 : ℝ) : ℂ) * I
def ser2 (c0 c t : ℝ) : ℂ := ((1 / 2 * (-1 + (t ^ 2 * c) * (1 - (t ^ 2 * c) * (1 - (t ^ 2 * c) / 56) / 30) / 12 + t ^ 6 * c0 ^ 2 / 20160) : ℝ) : ℂ) +
  ((1 / 2 * (t ^ 3 * c0 * (1 - (t ^ 2 * c) * (1 - (t ^ 2 * c) / 48) / 21) / 60) : ℝ) : ℂ) * I

/-- near 0 the routine uses the series, which starts with `1+iQ` -/
theorem hexp_series (Q : M3) {t : ℝ} (ht : su3_real_trace ((t • Q) * (t • Q)) / 2 < 4e-3) :
    hermitian_exact_i_exponentiate (t • Q) = 1 + (t : ℂ) • (I • Q) + ((t : ℂ) ^ 2) • (
      ser0 (su3_real_det Q) (su3_real_trace (Q * Q) / 2) t • (1 : M3) + ser1 (su3_real_det Q) (su3_real_trace (Q * Q) / 2) t • Q +
      ser2 (su3_real_det Q) (su3_real_trace (Q * Q) / 2) t • (Q * Q)) := by
  have hd : su3_real_det (t • Q) = t ^ 3 * su3_real_det Q := by
    rw [C31_real_det, C31_real_det]
    rw [show t • Q = (t : ℂ) • Q from (by ext i j; simp), Matrix.det_smul]
    simp [Complex.mul_re, ← Complex.ofReal_pow]
  have hq : (t • Q) * (t • Q) = ((t : ℂ) ^ 2) • (Q * Q) := by
    ext i j
    simp [Matrix.mul_apply, Finset.mul_sum]
    exact Finset.sum_congr rfl fun k _ => by ring
  have htr : su3_real_trace ((t • Q) * (t • Q)) = t ^ 2 * su3_real_trace (Q * Q) := by
    rw [hq, trace_eq, trace_eq, Matrix.trace_smul]
    simp [← Complex.ofReal_pow]
  unfold hermitian_exact_i_exponentiate prepareIngredients
  simp only
  rw [if_pos ht, hd, htr, hq]
  have hs : ∀ (z : ℂ), z • (t • Q) = (z * t) • Q := by
    intro z; ext i j; simp; ring
  simp only [hs]
  generalize su3_real_det Q = c0
  generalize su3_real_trace (Q * Q) = c1
  rw [show (t ^ 2 * c1 / 2 : ℝ) = t ^ 2 * (c1 / 2) by ring]
  generalize c1 / 2 = c
  ext i j
  simp only [Matrix.add_apply, Matrix.smul_apply, smul_eq_mul]
  generalize (1 : M3) i j = a
  generalize Q i j = b
  generalize (Q * Q) i j = d
  simp only [ser0, ser1, ser2, Complex.mk_eq_add_mul_I, show (0.5 : ℝ) = 1 / 2 by norm_num]
  push_cast
  ring

theorem hexp_deriv (Q : M3) : DerivM (fun t => hermitian_exact_i_exponentiate (t • Q)) (I • Q) 0 := by
  intro i j
  have hev : ∀ᶠ t in nhds (0 : ℝ), su3_real_trace ((t • Q) * (t • Q)) / 2 < 4e-3 := by
    have hc : ContinuousAt (fun t : ℝ => t ^ 2 * (su3_real_trace (Q * Q) / 2)) 0 := by fun_prop
    have h0 := hc.eventually_lt (continuousAt_const (y := (4e-3 : ℝ))) (by norm_num)
    filter_upwards [h0] with t ht
    have hq : (t • Q) * (t • Q) = ((t : ℂ) ^ 2) • (Q * Q) := by
      ext i j
      simp [Matrix.mul_apply, Finset.mul_sum]
      exact Finset.sum_congr rfl fun k _ => by ring
    have htr : su3_real_trace ((t • Q) * (t • Q)) = t ^ 2 * su3_real_trace (Q * Q) := by
      rw [hq, trace_eq, trace_eq, Matrix.trace_smul]
      simp [← Complex.ofReal_pow]
    rw [htr]
    linarith
  have key : ∃ r : ℝ → ℂ, DifferentiableAt ℝ r 0 ∧ ∀ᶠ t : ℝ in nhds (0 : ℝ), hermitian_exact_i_exponentiate (t • Q) i j =
      (1 : M3) i j + (t : ℂ) * (I * Q i j) + (t : ℂ) ^ 2 * r t := by
    refine ⟨fun t => ser0 (su3_real_det Q) (su3_real_trace (Q * Q) / 2) t * (1 : M3) i j + ser1 (su3_real_det Q) (su3_real_trace (Q * Q) / 2) t * Q i j +
      ser2 (su3_real_det Q) (su3_real_trace (Q * Q) / 2) t * (Q * Q) i j, ?_, ?_⟩
    · refine DifferentiableAt.add (DifferentiableAt.add ?_ ?_) ?_
      all_goals refine DifferentiableAt.mul_const (DifferentiableAt.add (ofReal_diff ?_) (DifferentiableAt.mul_const (ofReal_diff ?_) _)) _
      all_goals fun_prop
    · filter_upwards [hev] with t ht
      rw [hexp_series Q ht]
      simp only [Matrix.add_apply, Matrix.smul_apply, smul_eq_mul]
  obtain ⟨r, hr, he⟩ := key
  have ht : HasDerivAt (fun t : ℝ => (t : ℂ)) 1 0 := by
    have := Complex.ofRealCLM.hasDerivAt (x := (0 : ℝ))
    exact HasDerivAt.congr_deriv this (by simp)
  have hd : HasDerivAt (fun t : ℝ => (1 : M3) i j + (t : ℂ) * (I * Q i j) + (t : ℂ) ^ 2 * r t) (I * Q i j) 0 := by
    have := HasDerivAt.add (HasDerivAt.const_add ((1 : M3) i j) (HasDerivAt.mul_const ht (I * Q i j))) (HasDerivAt.mul (HasDerivAt.pow ht 2) hr.hasDerivAt)
    refine HasDerivAt.congr_deriv this ?_
    simp
  exact HasDerivAt.congr_of_eventuallyEq hd he

theorem DerivM.mul_right {f : ℝ → M3} {f' : M3} {t : ℝ} (hf : DerivM f f' t) (A : M3) : DerivM (fun s => f s * A) (f' * A) t := by
  have := hf.mul (DerivM.const A t)
  simpa using this

/-- the values of the argument where the exponential is computed exactly, or 0 -/
def RegH (Q : M3) : Prop := Q = 0 ∨ (4e-3 ≤ expC1 Q ∧ 1e-3 ≤ expEps Q ∧ 0.05 ≤ |expW Q|)

theorem RegH_neg {Q : M3} (h : RegH Q) : RegH (-Q) := by
  rcases h with h | h
  · left; rw [h, neg_zero]
  · right
    have h1 : expC1 (-Q) = expC1 Q := by unfold expC1; rw [neg_mul_neg]
    have h0 : expC0 (-Q) = expC0 Q := by
      unfold expC0
      rw [C31_real_det, C31_real_det, Matrix.det_neg, Fintype.card_fin, show ((-1 : ℂ) ^ 3) = -1 by norm_num, neg_one_mul, Complex.neg_re, abs_neg]
    have h2 : expC0max (-Q) = expC0max Q := by unfold expC0max; rw [h1]
    have h3 : expEps (-Q) = expEps Q := by unfold expEps; rw [h2, h0]
    have h4 : expW (-Q) = expW Q := by unfold expW expTheta; rw [h1, h2, h0]
    rw [h1, h3, h4]
    exact h

theorem hexp_exp {Q : M3} (hh : Qᴴ = Q) (ht : Q.trace = 0) (h : RegH Q) : hermitian_exact_i_exponentiate Q = NormedSpace.exp (I • Q) := by
  rcases h with h | h
  · rw [h, hexp_zero]; simp
  · exact C38_exponential Q hh ht h.1 h.2.1 h.2.2

theorem hexp_su3 {Q : M3} (hh : Qᴴ = Q) (ht : Q.trace = 0) (h : RegH Q) : IsSU3 (hermitian_exact_i_exponentiate Q) := by
  rw [hexp_exp hh ht h]; exact exp_su3 Q hh ht

theorem hexp_inv {Q : M3} (hh : Qᴴ = Q) (ht : Q.trace = 0) (h : RegH Q) :
    hermitian_exact_i_exponentiate (-Q) * hermitian_exact_i_exponentiate Q = 1 := by
  rw [hexp_exp hh ht h, hexp_exp (by rw [conjTranspose_neg, hh]) (by rw [Matrix.trace_neg, ht, neg_zero]) (RegH_neg h), smul_neg, Matrix.exp_neg]
  refine Matrix.nonsing_inv_mul _ ?_
  rw [(exp_su3 Q hh ht).2]
  exact isUnit_one

theorem kinSpec_congr {g : Geo} {H K : Coords → Quad} (h : ∀ x ∈ box g.L, H x = K x) : kinSpec g H = kinSpec g K := by
  unfold kinSpec
  congr 1
  exact Finset.sum_congr rfl fun x hx => by rw [h x hx]

section
variable {g : Geo} (ok : g.Ok)
include ok

/-- C50: starting from any configuration and hermitian traceless momenta, moving the links with the momenta and the momenta with the
force for a time `dt`, the sum of `momenta_action` and `gluonic_action` does not change at first order in `dt`: the force, its sign and
its normalisation are those of the action. -/
theorem C50_step_energy (eo : EoOk g) (E : Env) (hE : E.Ok) (ji : Nat) (jv jv' : Quad) (sched : Nat → Nat → List Nat) (hl : ∀ rk, Reduce.Legal (sched rk))
    (sched' : Nat → Nat → Nat → List Nat) (hl' : ∀ p rk, Reduce.Legal (sched' p rk)) (U H : Nat → Nat → Quad)
    (hH : ∀ rk, rk < g.nranks → ∀ i, i < g.locVol → ∀ mu, (H rk i mu)ᴴ = H rk i mu ∧ (H rk i mu).trace = 0)
    (name : ActName) (hn : name ≠ .unspec) (beta : ℝ) :
    ∃ S K : ℝ → ℝ, (∀ dt, gluonic_action_lx g ji jv sched (evolve_lx_conf_with_momenta U H dt) name beta = some (S dt)) ∧
      (∀ dt, ∃ H', evolve_momenta_with_pure_gauge_force g E H U name beta dt = some H' ∧ momenta_action g sched' (splitFld g jv' H') = K dt) ∧
      HasDerivAt (fun dt => K dt + S dt) 0 0 := by
  obtain ⟨C1, hC⟩ : ∃ C1, c1Of name = some C1 := by cases name; exact absurd rfl hn; all_goals exact ⟨_, rfl⟩
  obtain ⟨F, hF, hF1, -⟩ := C50_force ok E hE U name beta C1 hC
  refine ⟨fun dt => actionSpec beta C1 g (glob g (evolve_lx_conf_with_momenta U H dt)), fun dt => kinSpec g (glob g (evolve_lx_momenta_with_force H F dt)), ?_, ?_, ?_⟩
  · intro dt
    rw [C50_gluonic_action ok ji jv sched hl, hC]; rfl
  · intro dt
    refine ⟨evolve_lx_momenta_with_force H F dt, ?_, ?_⟩
    · unfold evolve_momenta_with_pure_gauge_force; rw [hF]; rfl
    · rw [C50_momenta_action ok eo sched' hl']
      exact kinSpec_congr fun x hx => glob_split ok eo jv' _ hx
  · have hU0 : evolve_lx_conf_with_momenta U H 0 = U := by
      funext rk i mu
      rw [evolve_conf_val, zero_smul, hexp_zero, Matrix.one_mul]
    have hH0 : evolve_lx_momenta_with_force H F 0 = H := by
      funext rk i mu
      rw [evolve_mom_val, zero_smul, sub_zero]
    refine C50_energy_conserved ok beta C1 (U := fun s => glob g (evolve_lx_conf_with_momenta U H s)) (H := fun s => glob g (evolve_lx_momenta_with_force H F s)) ?_ ?_ ?_
    · intro x hx mu
      simp only [hH0]
      obtain ⟨h1, h2, -⟩ := C02_rank_and_loclx g ok x (mem_box.1 hx)
      exact hH _ h1 _ h2 mu
    · intro x hx mu
      simp only [hH0, hU0]
      have : (fun s => glob g (evolve_lx_conf_with_momenta U H s) x mu) = fun s => hermitian_exact_i_exponentiate (s • glob g H x mu) * glob g U x mu :=
        funext fun s => evolve_conf_val U H s _ _ mu
      rw [this]
      exact (hexp_deriv _).mul_right _
    · intro x hx mu
      simp only [hU0]
      rw [← hF1 x hx mu]
      have : (fun s => glob g (evolve_lx_momenta_with_force H F s) x mu) = fun s => glob g H x mu - s • (I • glob g F x mu) :=
        funext fun s => evolve_mom_val H F s _ _ mu
      rw [this]
      intro a b
      have h1 : HasDerivAt (fun s : ℝ => (s : ℂ) * (I • glob g F x mu) a b) ((1 : ℂ) * (I • glob g F x mu) a b) 0 := by
        have := Complex.ofRealCLM.hasDerivAt (x := (0 : ℝ))
        exact HasDerivAt.mul_const (HasDerivAt.congr_deriv this (by simp)) _
      have h2 := HasDerivAt.const_sub (glob g H x mu a b) h1
      refine HasDerivAt.congr_deriv (HasDerivAt.congr_of_eventuallyEq h2 (Filter.Eventually.of_forall fun s => ?_)) ?_
      · simp
      · simp

/-- C50: the momenta remain hermitian and traceless -/
theorem C50_kick_keeps_algebra (E : Env) (hE : E.Ok) (U H H' : Nat → Nat → Quad)
    (hH : ∀ rk, rk < g.nranks → ∀ i, i < g.locVol → ∀ mu, (H rk i mu)ᴴ = H rk i mu ∧ (H rk i mu).trace = 0) (name : ActName) (beta dt : ℝ)
    (h : evolve_momenta_with_pure_gauge_force g E H U name beta dt = some H') :
    ∀ rk, rk < g.nranks → ∀ i, i < g.locVol → ∀ mu, (H' rk i mu)ᴴ = H' rk i mu ∧ (H' rk i mu).trace = 0 := by
  intro rk hrk i hi mu
  unfold evolve_momenta_with_pure_gauge_force at h
  cases hF : compute_gluonic_force_lx_conf g E U name beta with
  | none => rw [hF] at h; cases h
  | some F =>
    rw [hF] at h
    cases h
    obtain ⟨h1, h2⟩ := C50_force_algebra ok E hE U name beta F hF rk hrk i hi mu
    beta_reduce
    rw [evolve_mom_val]
    constructor
    · rw [conjTranspose_sub, (hH rk hrk i hi mu).1, conjTranspose_smul, conjTranspose_smul, h1]
      simp
    · rw [Matrix.trace_sub, (hH rk hrk i hi mu).2, Matrix.trace_smul, Matrix.trace_smul, h2]
      simp

omit ok in
/-- C50: the links remain in SU(3), where the exponential is not in the branches using truncated series; moving them back with the same
momenta restores the configuration. -/
theorem C50_drift (U H : Nat → Nat → Quad) (dt : ℝ) (rk i : Nat) (mu : Dir) (hH : (H rk i mu)ᴴ = H rk i mu ∧ (H rk i mu).trace = 0)
    (hr : RegH (dt • H rk i mu)) :
    (IsSU3 (U rk i mu) → IsSU3 (evolve_lx_conf_with_momenta U H dt rk i mu)) ∧
    evolve_lx_conf_with_momenta (evolve_lx_conf_with_momenta U H dt) H (-dt) rk i mu = U rk i mu := by
  have h1 : (dt • H rk i mu)ᴴ = dt • H rk i mu := by rw [conjTranspose_smul, hH.1]; simp
  have h2 : (dt • H rk i mu).trace = 0 := by rw [Matrix.trace_smul, hH.2, smul_zero]
  constructor
  · intro hU
    rw [evolve_conf_val]
    exact su3_mul (hexp_su3 h1 h2 hr) hU
  · rw [evolve_conf_val, evolve_conf_val, neg_smul, ← Matrix.mul_assoc, hexp_inv h1 h2 hr, Matrix.one_mul]

/-! ### Names -/

omit ok in
/-- C50: the name printed for an action is read back as the same action; writing it in any case does not matter; the name printed for an
unspecified action is not accepted. -/
theorem C50_names : (∀ n, n ≠ .unspec → gauge_action_name_from_str (gauge_action_str_from_name n) = some n) ∧
    gauge_action_name_from_str (gauge_action_str_from_name .unspec) = none ∧
    (∀ s s' : List Char, s.map Char.toLower = s'.map Char.toLower → gauge_action_name_from_str s = gauge_action_name_from_str s') ∧
    (∀ s n, gauge_action_name_from_str s = some n → s.map Char.toLower = (gauge_action_str_from_name n).map Char.toLower ∧ n ≠ .unspec) := by
  refine ⟨?_, by decide, ?_, ?_⟩
  · intro n hn; cases n
    · exact absurd rfl hn
    all_goals decide
  · intro s s' h
    unfold gauge_action_name_from_str strcaseEq
    simp only [h]
  · intro s n h
    unfold gauge_action_name_from_str at h
    simp only [Option.map_eq_some_iff] at h
    obtain ⟨⟨n', k⟩, hf, rfl⟩ := h
    have h1 := List.mem_of_find?_eq_some hf
    have h2 := List.find?_some hf
    simp only [strcaseEq, beq_iff_eq] at h2
    simp only [List.mem_cons, List.not_mem_nil, or_false, Prod.mk.injEq] at h1
    rcases h1 with ⟨rfl, rfl⟩ | ⟨rfl, rfl⟩ | ⟨rfl, rfl⟩ <;> exact ⟨h2, by simp⟩

end

/-! ### Concrete cases -/

/-- four ranks -/
def fcGeo : Geo := ⟨![4, 4, 4, 4], ![2, 2, 1, 1]⟩

/-- momenta along a fixed generator, different for the four directions -/
def fcMom : Nat → Nat → Quad := fun _ _ mu => !![0, ((mu.val + 1 : ℕ) : ℂ), 0; ((mu.val + 1 : ℕ) : ℂ), 0, 0; 0, 0, 0]

def fcEnv : Env := ⟨0, fun _ _ _ l => l, fun n _ _ l => if n = 4 then l.reverse else l, fun _ _ => 0, fun _ _ => 0, fun _ _ => 0, fun _ _ => 0, fun _ _ => 0,
  fun _ => 0, fun _ => 0, fun _ _ => 0, fun _ _ => 0⟩

example : fcGeo.Ok ∧ EoOk fcGeo := by decide

theorem fcEnv_ok : fcEnv.Ok := ⟨fun _ _ _ _ => List.Perm.refl _, fun n _ _ l => by show List.Perm (if n = 4 then l.reverse else l) l; split; exact List.reverse_perm l; exact List.Perm.refl _⟩

theorem fcMom_ok (rk i : Nat) (mu : Dir) : (fcMom rk i mu)ᴴ = fcMom rk i mu ∧ (fcMom rk i mu).trace = 0 := by
  unfold fcMom
  constructor
  · ext a b; fin_cases a <;> fin_cases b <;> simp [conjTranspose_apply]
  · simp [Matrix.trace, Fin.sum_univ_three]

example (U : Nat → Nat → Quad) : ∃ S K : ℝ → ℝ,
    (∀ dt, gluonic_action_lx fcGeo 0 0 (fun _ => List.range) (evolve_lx_conf_with_momenta U fcMom dt) .iwasaki (26 / 10) = some (S dt)) ∧
    (∀ dt, ∃ H', evolve_momenta_with_pure_gauge_force fcGeo fcEnv fcMom U .iwasaki (26 / 10) dt = some H' ∧
      momenta_action fcGeo (fun _ _ n => (List.range n).reverse) (splitFld fcGeo 0 H') = K dt) ∧ HasDerivAt (fun dt => K dt + S dt) 0 0 :=
  C50_step_energy (g := fcGeo) (by decide) (by decide) fcEnv fcEnv_ok 0 0 0 _ (fun _ _ => List.Perm.refl _) _ (fun _ _ _ => List.reverse_perm _) U fcMom
    (fun rk _ i _ mu => fcMom_ok rk i mu) _ (by simp) _

end

end Nissa.GForce
