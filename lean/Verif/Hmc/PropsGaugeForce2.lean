import Verif.Hmc.PropsGaugeForce
import Verif.Hmc.EoSum
import Verif.Dirac.PropsEoPrec2

/-! # The force as computed, and the conservation of the energy -/

set_option linter.all false

namespace Nissa.GForce
open Nissa.Lx Nissa.Sten Nissa.Su3f Nissa.Gauge Nissa.Paths Nissa.LSm Nissa.Stap Nissa.EoP Matrix Complex

noncomputable section

theorem herm_double (b : M3) (r : ℝ) : su3_hermitian_prod_double b r = (r • b)ᴴ := by
  ext i j
  apply Complex.ext <;> simp [su3_hermitian_prod_double]

theorem summ_herm_double (a b : M3) (r : ℝ) : su3_summ_the_hermitian_prod_double a b r = a + (r • b)ᴴ := by
  ext i j
  apply Complex.ext <;> simp [su3_summ_the_hermitian_prod_double]

/-- real trace with a hermitian traceless matrix times `i`: only the algebra part counts -/
theorem reTr_alg (H M : M3) (hh : Hᴴ = H) (ht : H.trace = 0) : ((I • H) * algPart M).trace.re = ((I • H) * M).trace.re := by
  unfold algPart
  rw [Matrix.mul_sub, Matrix.trace_sub, Matrix.mul_smul, Matrix.mul_smul, Matrix.mul_one, Matrix.trace_smul, Matrix.trace_smul (_ / 3), Matrix.trace_smul I H, ht]
  simp only [smul_zero, sub_zero]
  rw [Matrix.mul_sub, Matrix.trace_sub]
  have : ((I • H) * Mᴴ).trace = -star ((I • H) * M).trace := by
    rw [← Matrix.trace_conjTranspose, conjTranspose_mul, conjTranspose_smul, hh, Matrix.trace_mul_comm]
    simp
  rw [this]
  simp only [smul_eq_mul, Complex.star_def]
  simp
  ring

section
variable {g : Geo} (ok : g.Ok)
include ok

theorem glob_at {V : Type} (F : Nat → Nat → V) {rk i : Nat} (hrk : rk < g.nranks) (hi : i < g.locVol) {c : Coords}
    (hc : glbCoordOfLoclx g (coordOfLx rk g.R) i = some c) : glob g F c = F rk i := by
  unfold glob
  rw [rank_site ok hrk hi hc]

/-- the sum of the staples as computed -/
theorem force_unfinished (E : Env) (hE : E.Ok) (U : Nat → Nat → Quad) (name : ActName) (beta C1 : ℝ) (hn : c1Of name = some C1) :
    ∃ F, compute_gluonic_force_lx_conf_do_not_finish g E U name beta = some F ∧ ∀ rk, rk < g.nranks → ∀ i, i < g.locVol →
      ∀ c, glbCoordOfLoclx g (coordOfLx rk g.R) i = some c → ∀ mu, F rk i mu = stapleForce beta C1 g (glob g U) c mu := by
  have h1 : ∀ rk, rk < g.nranks → ∀ i, i < g.locVol → ∀ c, glbCoordOfLoclx g (coordOfLx rk g.R) i = some c → ∀ mu,
      summed (E.sq g U (coordOfLx rk g.R)) i mu = stapleSum g (glob g U) Finset.univ c mu := fun rk hrk i hi c hc mu =>
    C49_summed_squared ok E.ji E.sched hE.s E.jc E.jb E.jb1 E.jq U E.out0 hrk hi hc mu
  have h2 : ∀ rk, rk < g.nranks → ∀ i, i < g.locVol → ∀ c, glbCoordOfLoclx g (coordOfLx rk g.R) i = some c → ∀ mu,
      summed (E.rect g U (coordOfLx rk g.R)) i mu = rectSum g (glob g U) c mu := fun rk hrk i hi c hc mu =>
    C49_summed_rectangular ok E.ji E.sched E.sched' hE.s hE.s' E.jc E.jb E.jb1 E.jb2 E.jb3 E.jq E.jq' U E.out0 E.out0' hrk hi hc mu
  have hS : ∀ C1 : ℝ, ∀ rk, rk < g.nranks → ∀ i, i < g.locVol → ∀ c, glbCoordOfLoclx g (coordOfLx rk g.R) i = some c → ∀ mu,
      Symanzik_force_lx_conf g E U beta C1 rk i mu = stapleForce beta C1 g (glob g U) c mu := by
    intro C1 rk hrk i hi c hc mu
    unfold Symanzik_force_lx_conf stapleForce get_C0
    simp only
    rw [h1 rk hrk i hi c hc, h2 rk hrk i hi c hc, summ_herm_double, herm_double, ← conjTranspose_add]
    congr 3
    · congr 1; ring
    · ring
  cases name
  · cases hn
  · cases hn
    refine ⟨_, rfl, ?_⟩
    intro rk hrk i hi c hc mu
    unfold Wilson_force_lx_conf stapleForce
    simp only
    rw [h1 rk hrk i hi c hc, herm_double]
    congr 1
    rw [show (-(beta * 0 / 3) : ℝ) = 0 by ring, zero_smul, add_zero]
    congr 1
    ring
  · refine ⟨_, rfl, ?_⟩
    have : C1 = C1_TLSYM := by have := Option.some.inj hn; rw [← this]; unfold C1_TLSYM; norm_num
    rw [this]
    exact hS _
  · refine ⟨_, rfl, ?_⟩
    have : C1 = C1_IWASAKI := by have := Option.some.inj hn; rw [← this]; unfold C1_IWASAKI; norm_num
    rw [this]
    exact hS _

/-- C50: the force computed by `compute_gluonic_force_lx_conf` on each local site is, for every grid of ranks, the projection on the
algebra of the link times the weighted staples of the global configuration; it crashes only if the action is not specified. -/
theorem C50_force (E : Env) (hE : E.Ok) (U : Nat → Nat → Quad) (name : ActName) (beta C1 : ℝ) (hn : c1Of name = some C1) :
    ∃ F, compute_gluonic_force_lx_conf g E U name beta = some F ∧ (∀ x ∈ box g.L, ∀ mu, glob g F x mu = forceSpec beta C1 g (glob g U) x mu) ∧
      ∀ rk, rk < g.nranks → ∀ i, i < g.locVol → ∀ c, glbCoordOfLoclx g (coordOfLx rk g.R) i = some c → ∀ mu,
        F rk i mu = forceSpec beta C1 g (glob g U) c mu := by
  obtain ⟨F, h1, h2⟩ := force_unfinished ok E hE U name beta C1 hn
  unfold compute_gluonic_force_lx_conf
  rw [h1]
  refine ⟨_, rfl, ?_⟩
  have : ∀ rk, rk < g.nranks → ∀ i, i < g.locVol → ∀ c, glbCoordOfLoclx g (coordOfLx rk g.R) i = some c → ∀ mu,
        gluonic_force_finish_computation F U rk i mu = forceSpec beta C1 g (glob g U) c mu := by
    intro rk hrk i hi c hc mu
    unfold gluonic_force_finish_computation forceSpec
    simp only
    rw [algPart_eq, h2 rk hrk i hi c hc, glob_at ok U hrk hi hc]
  refine ⟨?_, this⟩
  intro x hx mu
  obtain ⟨rk, i, k1, k2, -, k3, k4⟩ := lxSite ok hx
  rw [k4]
  exact this rk k1 i k2 x k3 mu

omit ok in
theorem C50_force_unspecified (E : Env) (U : Nat → Nat → Quad) (beta : ℝ) : compute_gluonic_force_lx_conf g E U .unspec beta = none := rfl

omit ok in
theorem forceSpec_alg (beta C1 : ℝ) (U : Coords → Quad) (x : Coords) (mu : Dir) :
    (forceSpec beta C1 g U x mu)ᴴ = -forceSpec beta C1 g U x mu ∧ (forceSpec beta C1 g U x mu).trace = 0 := algPart_anti _

/-- C50: the force of any configuration is antihermitian and traceless on every local site. -/
theorem C50_force_algebra (E : Env) (hE : E.Ok) (U : Nat → Nat → Quad) (name : ActName) (beta : ℝ) (F : Nat → Nat → Quad)
    (hF : compute_gluonic_force_lx_conf g E U name beta = some F) : ∀ rk, rk < g.nranks → ∀ i, i < g.locVol → ∀ mu,
      (F rk i mu)ᴴ = -F rk i mu ∧ (F rk i mu).trace = 0 := by
  intro rk hrk i hi mu
  cases hn : c1Of name with
  | none => cases name <;> simp [c1Of] at hn; cases hF
  | some C1 =>
    obtain ⟨F', h1, -, h3⟩ := C50_force ok E hE U name beta C1 hn
    rw [hF] at h1
    cases h1
    obtain ⟨c, hc⟩ := glbCoord_some ok (coordOfLx rk g.R) (i := i) (by unfold allVol; omega)
    rw [h3 rk hrk i hi c hc mu]
    exact forceSpec_alg beta C1 (glob g U) c mu

omit ok in
/-- net displacement along a direction -/
def net : List Move → Dir → Int
  | [], _ => 0
  | m :: l, rho => (if m.1 = rho then (if m.2 then 1 else -1) else 0) + net l rho

theorem pathEnd_val {x : Coords} (hx : x ∈ box g.L) (l : List Move) (rho : Dir) : ((pathEnd g x l rho : Nat) : Int) = (x rho + net l rho) % g.L rho := by
  induction l generalizing x with
  | nil =>
    rw [mem_box] at hx
    have := hx rho
    simp only [pathEnd, net, add_zero]
    rw [Int.emod_eq_of_lt (by omega) (by omega)]
  | cons m l ih =>
    obtain ⟨mu, d⟩ := m
    rw [pathEnd_cons, ih (stepOf_mem ok hx (mu, d))]
    have hL := L_pos ok mu
    by_cases h : mu = rho
    · subst h
      simp only [stepOf, tshift, net, Function.update_self, if_true]
      rw [Int.toNat_of_nonneg (Int.emod_nonneg _ (by omega)), Int.emod_add_emod]
      congr 1
      ring
    · simp only [stepOf, tshift, net, if_neg h]
      rw [Function.update_of_ne (Ne.symm h), zero_add]

theorem pathEnd_net {x : Coords} (hx : x ∈ box g.L) (l k : List Move) (h : ∀ rho, net l rho = net k rho) : pathEnd g x l = pathEnd g x k := by
  funext rho
  have := pathEnd_val ok hx l rho
  rw [h, ← pathEnd_val ok hx k rho] at this
  exact_mod_cast this

theorem rectSum_transformed (G : Coords → M3) (hG : AllUnitary g G) (U : Coords → Quad) {x : Coords} (hx : x ∈ box g.L) (mu : Dir) :
    rectSum g (transformed g G U) x mu = G x * rectSum g U x mu * (G (tshift g x mu 1))ᴴ := by
  unfold rectSum
  rw [Matrix.mul_sum, Matrix.sum_mul]
  refine Finset.sum_congr rfl fun nu hnu => ?_
  have hne : nu ≠ mu := (Finset.mem_filter.1 hnu).2
  have hy := tshift_mem_box ok hx mu 1
  have hm := fun m (d : Int) => tshift_mem_box ok hx m d
  have hm2 := fun m (d : Int) m' (d' : Int) => tshift_mem_box ok (hm m d) m' d'
  unfold pathSum fwRects bwRects
  simp only [List.map_cons, List.map_nil, List.sum_cons, List.sum_nil, add_zero]
  have b1 := fun {y} (hy : y ∈ box g.L) m => tshift_back ok hy m 1 (.inl rfl)
  have b2 := fun {y} (hy : y ∈ box g.L) m => tshift_back ok hy m (-1) (.inr rfl)
  rw [path_open ok G hG U hx hy _ ?_, path_open ok G hG U hx hy _ ?_, path_open ok G hG U hx hy _ ?_, path_open ok G hG U hx hy _ ?_,
    path_open ok G hG U hx hy _ ?_, path_open ok G hG U hx hy _ ?_]
  · simp only [← Matrix.add_mul, ← Matrix.mul_add]
  all_goals exact pathEnd_net ok hx _ [(mu, true)] (by intro rho; by_cases h1 : mu = rho <;> by_cases h2 : nu = rho <;> simp [net, h1, h2])

theorem forceSpec_transformed (G : Coords → M3) (hG : AllUnitary g G) (U : Coords → Quad) (beta C1 : ℝ) {x : Coords} (hx : x ∈ box g.L) (mu : Dir) :
    forceSpec beta C1 g (transformed g G U) x mu = G x * forceSpec beta C1 g U x mu * (G x)ᴴ := by
  unfold forceSpec
  rw [← algPart_conj _ _ (hG x hx)]
  congr 1
  unfold stapleForce
  rw [stapleSum_transformed ok G hG U _ hx mu, rectSum_transformed ok G hG U hx mu]
  have h1 := hG _ (tshift_mem_box ok hx mu 1)
  have e : ∀ A B : M3, ∀ a b : ℝ, a • (G x * A * (G (tshift g x mu 1))ᴴ) + b • (G x * B * (G (tshift g x mu 1))ᴴ) =
      G x * (a • A + b • B) * (G (tshift g x mu 1))ᴴ := by
    intro A B a b
    simp only [Matrix.mul_add, Matrix.add_mul, Matrix.mul_smul, Matrix.smul_mul]
  rw [e, conjTranspose_mul, conjTranspose_mul, conjTranspose_conjTranspose]
  generalize ((_ : ℝ) • stapleSum g U Finset.univ x mu + (_ : ℝ) • rectSum g U x mu)ᴴ = S
  unfold transformed
  calc _ = G x * U x mu * ((G (tshift g x mu 1))ᴴ * G (tshift g x mu 1)) * (S * (G x)ᴴ) := by simp only [Matrix.mul_assoc]
    _ = _ := by rw [h1, Matrix.mul_one]; simp only [Matrix.mul_assoc]

theorem forceSpec_congr {U V : Coords → Quad} (h : ∀ x ∈ box g.L, U x = V x) (beta C1 : ℝ) {x : Coords} (hx : x ∈ box g.L) (mu : Dir) :
    forceSpec beta C1 g U x mu = forceSpec beta C1 g V x mu := by
  unfold forceSpec stapleForce stapleSum rectSum staplePair pathSum
  have hp : ∀ l, pathProd g U x l = pathProd g V x l := fun l => Nissa.Clv.pathProd_congr ok h l hx
  have : pathProd g U x = pathProd g V x := funext hp
  rw [this, h x hx]

/-- C50: the force of a gauge transformed configuration is the force, rotated at each site. -/
theorem C50_force_covariant (E E' : Env) (hE : E.Ok) (hE' : E'.Ok) (ji : Nat) (jg : M3) (U : Nat → Nat → Quad) (G : Nat → Nat → M3)
    (hG : ∀ rk, rk < g.nranks → ∀ i, i < g.locVol → (G rk i)ᴴ * G rk i = 1) (name : ActName) (beta : ℝ) (F F' : Nat → Nat → Quad)
    (hF : compute_gluonic_force_lx_conf g E U name beta = some F)
    (hF' : compute_gluonic_force_lx_conf g E' (gauge_transform_conf g ji jg G U) name beta = some F') : ∀ rk, rk < g.nranks → ∀ i, i < g.locVol → ∀ mu,
      F' rk i mu = G rk i * F rk i mu * (G rk i)ᴴ := by
  intro rk hrk i hi mu
  cases hn : c1Of name with
  | none => cases name <;> simp [c1Of] at hn; cases hF
  | some C1 =>
    obtain ⟨F1, h1, -, h3⟩ := C50_force ok E hE U name beta C1 hn
    obtain ⟨F2, k1, -, k3⟩ := C50_force ok E' hE' (gauge_transform_conf g ji jg G U) name beta C1 hn
    rw [hF] at h1; cases h1
    rw [hF'] at k1; cases k1
    obtain ⟨c, hc⟩ := glbCoord_some ok (coordOfLx rk g.R) (i := i) (by unfold allVol; omega)
    have hb := coord_box ok hrk hi hc
    have hG' : AllUnitary g (glob g G) := by
      intro x hx
      obtain ⟨h1, h2, -⟩ := C02_rank_and_loclx g ok x (mem_box.1 hx)
      exact hG _ h1 _ h2
    rw [h3 rk hrk i hi c hc mu, k3 rk hrk i hi c hc mu, forceSpec_congr ok (fun x hx => C32_gauge_transform ok ji jg G U x hx) _ _ hb,
      forceSpec_transformed ok _ hG' _ _ _ hb, glob_at ok G hrk hi hc]

/-! ### The force is the gradient of the action -/

/-- C50: when the links move along `dU/dt = i H U`, with `H` hermitian and traceless, the action changes at the rate given by
momenta and force, `sum Re Tr(i H F)`. -/
theorem C50_force_is_gradient (beta C1 : ℝ) {U : ℝ → Coords → Quad} {H : Coords → Quad} {t : ℝ}
    (hH : ∀ x ∈ box g.L, ∀ mu, (H x mu)ᴴ = H x mu ∧ (H x mu).trace = 0)
    (h : ∀ x ∈ box g.L, ∀ mu, DerivM (fun s => U s x mu) ((I • H x mu) * U t x mu) t) :
    HasDerivAt (fun s => actionSpec beta C1 g (U s)) (∑ x ∈ box g.L, ∑ mu, ((I • H x mu) * forceSpec beta C1 g (U t) x mu).trace.re) t := by
  refine HasDerivAt.congr_deriv (C50_action_derivative ok beta C1 h) ?_
  refine Finset.sum_congr rfl fun x hx => Finset.sum_congr rfl fun mu _ => ?_
  unfold forceSpec
  rw [reTr_alg _ _ (hH x hx mu).1 (hH x hx mu).2, Matrix.mul_assoc]

end

/-- Specification: the kinetic energy of the momenta, `1/2 sum_x sum_mu Re Tr(H H^+)` -/
def kinSpec (g : Geo) (H : Coords → Quad) : ℝ := (1 / 2) * ∑ x ∈ box g.L, ∑ mu, (H x mu * (H x mu)ᴴ).trace.re

section
variable {g : Geo} (ok : g.Ok)
include ok

/-- C50: `momenta_action` is half the trace of the square of the momenta, summed over the global lattice -/
theorem C50_momenta_action (eo : EoOk g) (sched : Nat → Nat → Nat → List Nat) (hl : ∀ p rk, Reduce.Legal (sched p rk)) (H : Nat → Nat → Nat → Quad) :
    momenta_action g sched H = kinSpec g (globEo g H) := by
  unfold momenta_action eoNorm2 kinSpec
  simp only [List.foldl_cons, List.foldl_nil, zero_add]
  rw [reduce_eo ok eo sched hl (fun rk p e => ∑ mu, ∑ ic1, ∑ ic2, ((H rk p e mu ic1 ic2).re * (H rk p e mu ic1 ic2).re + (H rk p e mu ic1 ic2).im * (H rk p e mu ic1 ic2).im)),
    div_eq_inv_mul, ← one_div]
  congr 1
  refine Finset.sum_congr rfl fun x hx => ?_
  unfold globEo
  refine Finset.sum_congr rfl fun mu _ => ?_
  rw [Matrix.trace, Complex.re_sum]
  refine Finset.sum_congr rfl fun i _ => ?_
  rw [Matrix.diag_apply, Matrix.mul_apply, Complex.re_sum]
  refine Finset.sum_congr rfl fun j _ => ?_
  simp

omit ok in
theorem evolve_mom_val (H F : Nat → Nat → Quad) (dt : ℝ) (rk i : Nat) (mu : Dir) :
    evolve_lx_momenta_with_force H F dt rk i mu = H rk i mu - dt • (I • F rk i mu) := by
  ext a b
  apply Complex.ext <;> simp [evolve_lx_momenta_with_force] <;> ring

omit ok in
theorem evolve_conf_val (conf H : Nat → Nat → Quad) (dt : ℝ) (rk i : Nat) (mu : Dir) :
    evolve_lx_conf_with_momenta conf H dt rk i mu = hermitian_exact_i_exponentiate (dt • H rk i mu) * conf rk i mu := by
  unfold evolve_lx_conf_with_momenta
  simp only
  congr 2
  ext a b
  apply Complex.ext <;> simp <;> ring

omit ok in
theorem kin_deriv {H : ℝ → Coords → Quad} {K : Coords → Quad} {t : ℝ} (h : ∀ x ∈ box g.L, ∀ mu, DerivM (fun s => H s x mu) (K x mu) t) :
    HasDerivAt (fun s => kinSpec g (H s)) (∑ x ∈ box g.L, ∑ mu, (K x mu * (H t x mu)ᴴ).trace.re) t := by
  unfold kinSpec
  have := HasDerivAt.const_mul (1 / 2 : ℝ) (HasDerivAt.fun_sum (u := box g.L) fun x hx => HasDerivAt.fun_sum (u := Finset.univ) fun mu _ =>
    ((h x hx mu).mul (h x hx mu).dag).reTr)
  refine HasDerivAt.congr_deriv this ?_
  rw [Finset.mul_sum]
  refine Finset.sum_congr rfl fun x _ => ?_
  rw [Finset.mul_sum]
  refine Finset.sum_congr rfl fun mu _ => ?_
  rw [Matrix.trace_add, Complex.add_re, ← reTr_dag (H t x mu * _), conjTranspose_mul, conjTranspose_conjTranspose]
  ring

/-- C50: the equations of motion integrated by the program, `dU/dt = i H U` and `dH/dt = -i F`, conserve kinetic energy plus action. -/
theorem C50_energy_conserved (beta C1 : ℝ) {U H : ℝ → Coords → Quad} {t : ℝ}
    (hH : ∀ x ∈ box g.L, ∀ mu, (H t x mu)ᴴ = H t x mu ∧ (H t x mu).trace = 0)
    (hU : ∀ x ∈ box g.L, ∀ mu, DerivM (fun s => U s x mu) ((I • H t x mu) * U t x mu) t)
    (hF : ∀ x ∈ box g.L, ∀ mu, DerivM (fun s => H s x mu) (-(I • forceSpec beta C1 g (U t) x mu)) t) :
    HasDerivAt (fun s => kinSpec g (H s) + actionSpec beta C1 g (U s)) 0 t := by
  refine HasDerivAt.congr_deriv (HasDerivAt.add (kin_deriv hF) (C50_force_is_gradient ok beta C1 hH hU)) ?_
  rw [← Finset.sum_add_distrib]
  refine Finset.sum_eq_zero fun x hx => ?_
  rw [← Finset.sum_add_distrib]
  refine Finset.sum_eq_zero fun mu _ => ?_
  rw [(hH x hx mu).1, Matrix.neg_mul, Matrix.trace_neg, Complex.neg_re, Matrix.smul_mul, Matrix.smul_mul, Matrix.trace_smul, Matrix.trace_smul,
    Matrix.trace_mul_comm]
  ring

end

end

end Nissa.GForce
