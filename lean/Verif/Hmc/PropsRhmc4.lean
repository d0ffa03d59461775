import Verif.Hmc.PropsRhmc3
import Mathlib.Algebra.Order.Chebyshev

/-! # The step of the RHMC: bounds on the spectrum, and `set_expansions` (C57) -/

set_option linter.all false

namespace Nissa.Rhmc
open Nissa.Lx Nissa.Sten Nissa.Su3f Nissa.Gauge Nissa.GForce Nissa.LSm Nissa.StD Nissa.Back Nissa.CgF Nissa.Inv Nissa.QForce Nissa.Omel Matrix Complex
open Nissa.Remez (RatApprox Discretiz FlavSpec root_needed set_expansions up up_inv)
open scoped RealInnerProductSpace

noncomputable section

/-- square norm of a colour vector -/
def vn (v : Col) : ℝ := ∑ a, ‖v a‖ ^ 2

theorem vn_dot (v : Col) : star v ⬝ᵥ v = (vn v : ℂ) := by
  unfold vn dotProduct
  push_cast
  refine Finset.sum_congr rfl fun a _ => ?_
  rw [Pi.star_apply, Complex.star_def, ← Complex.normSq_eq_conj_mul_self, Complex.normSq_eq_norm_sq]
  push_cast
  rfl

theorem vn_unitary {U : M3} (h : Uᴴ * U = 1) (v : Col) : vn (U *ᵥ v) = vn v := by
  have : ((vn (U *ᵥ v) : ℝ) : ℂ) = (vn v : ℂ) := by
    rw [← vn_dot, ← vn_dot, star_mulVec, dotProduct_mulVec, vecMul_vecMul, h, vecMul_one]
  exact_mod_cast this

theorem vn_sum8 (a b : Dir → Col) : vn (∑ mu, (a mu - b mu)) ≤ 8 * ∑ mu, (vn (a mu) + vn (b mu)) := by
  unfold vn
  have key : ∀ i, ‖(∑ mu, (a mu - b mu)) i‖ ^ 2 ≤ 8 * ∑ mu, (‖a mu i‖ ^ 2 + ‖b mu i‖ ^ 2) := by
    intro i
    rw [Finset.sum_apply]
    have h1 : ‖∑ mu, (a mu - b mu) i‖ ≤ ∑ mu, (‖a mu i‖ + ‖b mu i‖) :=
      (norm_sum_le _ _).trans (Finset.sum_le_sum fun mu _ => by rw [Pi.sub_apply]; exact norm_sub_le _ _)
    have h2 : (∑ mu : Dir, (‖a mu i‖ + ‖b mu i‖)) ^ 2 ≤ 4 * ∑ mu, (‖a mu i‖ + ‖b mu i‖) ^ 2 := by
      have := sq_sum_le_card_mul_sum_sq (s := (Finset.univ : Finset Dir)) (f := fun mu => ‖a mu i‖ + ‖b mu i‖)
      simpa using this
    have h3 : ∑ mu : Dir, (‖a mu i‖ + ‖b mu i‖) ^ 2 ≤ ∑ mu, 2 * (‖a mu i‖ ^ 2 + ‖b mu i‖ ^ 2) :=
      Finset.sum_le_sum fun mu _ => by nlinarith [sq_nonneg (‖a mu i‖ - ‖b mu i‖)]
    rw [← Finset.mul_sum] at h3
    have h4 := pow_le_pow_left₀ (norm_nonneg _) h1 2
    linarith
  refine (Finset.sum_le_sum fun i _ => key i).trans (le_of_eq ?_)
  rw [← Finset.mul_sum, Finset.sum_comm]
  congr 1
  exact Finset.sum_congr rfl fun mu _ => Finset.sum_add_distrib

section
variable {g : Geo} (ok : g.Ok) (eo : EoOk g)
include ok eo

theorem dot_vn (s : Finset Coords) (x : Coords → Col) : (dot s x x).re = ∑ c ∈ s, vn (x c) := by
  unfold StD.dot
  rw [Complex.re_sum]
  exact Finset.sum_congr rfl fun c _ => by rw [vn_dot, Complex.ofReal_re]

/-- the hopping on unitary links has norm at most 8 -/
theorem hop_bound (V : Coords → Quad) (hV : ∀ x ∈ box g.L, ∀ mu, (V x mu)ᴴ * V x mu = 1) (x : Coords → Col) :
    (dot (boxP g 1) (hop g V x) (hop g V x)).re ≤ 64 * (dot (boxP g 0) x x).re := by
  rw [dot_vn ok eo, dot_vn ok eo]
  have h1 : ∀ c ∈ boxP g 1, vn (hop g V x c) ≤ 8 * ∑ mu, (vn (x (tshift g c mu 1)) + vn (x (tshift g c mu (-1)))) := by
    intro c hc
    have hb := (mem_boxP.1 hc).1
    refine (vn_sum8 _ _).trans (le_of_eq ?_)
    congr 1
    refine Finset.sum_congr rfl fun mu _ => ?_
    rw [vn_unitary (hV c hb mu), vn_unitary]
    rw [conjTranspose_conjTranspose]
    exact mul_eq_one_comm.1 (hV _ (tshift_mem_box ok hb mu (-1)) mu)
  refine (Finset.sum_le_sum h1).trans (le_of_eq ?_)
  rw [← Finset.mul_sum, Finset.sum_comm]
  have h2 : ∀ mu : Dir, ∑ c ∈ boxP g 1, (vn (x (tshift g c mu 1)) + vn (x (tshift g c mu (-1)))) = 2 * ∑ c ∈ boxP g 0, vn (x c) := by
    intro mu
    rw [Finset.sum_add_distrib, sum_shift_parity ok eo (by omega : 1 < 2) mu (.inl rfl) (fun _ d => vn (x d)),
      sum_shift_parity ok eo (by omega : 1 < 2) mu (.inr rfl) (fun _ d => vn (x d))]
    rw [show 1 - 1 = 0 from rfl]
    ring
  simp only [h2]
  rw [Finset.sum_const, Finset.card_univ, Fintype.card_fin]
  simp only [nsmul_eq_mul]
  push_cast
  ring

/-- C57: on unitary links the eigenvalues of `D^+ D` are between 0 and 16. -/
theorem C57_spectrum (V : Coords → Quad) (hV : ∀ x ∈ box g.L, ∀ mu, (V x mu)ᴴ * V x mu = 1) {lam : ℝ} (h : Eig g V lam) : 0 ≤ lam ∧ lam ≤ 16 := by
  refine ⟨eig_nonneg ok eo h, ?_⟩
  obtain ⟨chi, ⟨c0, hc0, hne⟩, hk⟩ := h
  have h1 := kern_form ok eo V 0 chi chi
  have h2 : dot (boxP g 0) chi (kern g V 0 chi) = lam * dot (boxP g 0) chi chi := by
    rw [← dot_smul]
    exact dot_congr (fun _ _ => rfl) hk
  have h3 : dot (boxP g 1) (odd g V chi) (odd g V chi) = (1 / 4 : ℝ) * dot (boxP g 1) (hop g V chi) (hop g V chi) := by
    unfold StD.dot
    rw [Finset.mul_sum]
    refine Finset.sum_congr rfl fun c _ => ?_
    unfold odd
    rw [star_smul, smul_dotProduct, dotProduct_smul, smul_smul, Complex.real_smul]
    simp
    norm_num
  have h4 := hop_bound ok eo V hV chi
  rw [h2, h3] at h1
  have h5 := congrArg Complex.re h1
  rw [Complex.re_ofReal_mul, Complex.add_re, Complex.re_ofReal_mul, Complex.re_ofReal_mul] at h5
  have h6 : 0 < (dot (boxP g 0) chi chi).re := by
    rw [dot_vn ok eo]
    refine lt_of_lt_of_le ?_ (Finset.single_le_sum (f := fun c => vn (chi c)) (fun c _ => Finset.sum_nonneg fun a _ => sq_nonneg _) hc0)
    obtain ⟨a, ha⟩ : ∃ a, chi c0 a ≠ 0 := by
      by_contra hh
      push Not at hh
      exact hne (funext hh)
    refine lt_of_lt_of_le ?_ (Finset.single_le_sum (f := fun a => ‖chi c0 a‖ ^ 2) (fun a _ => sq_nonneg _) (Finset.mem_univ a))
    have := norm_pos_iff.2 ha
    positivity
  by_contra hlt
  push Not at hlt
  nlinarith

theorem kernE_upper (V : Coords → Quad) (hV : ∀ x ∈ box g.L, ∀ mu, (V x mu)ᴴ * V x mu = 1) {m2 : ℝ} (hm : 0 ≤ m2) (x : EV (↥(boxP g 0) × Fin 3)) : ‖kernE g V m2 x‖ ≤ (16 + m2) * ‖x‖ := by
  have hsq : ‖kernE g V m2 x‖ ^ 2 ≤ ((16 + m2) * ‖x‖) ^ 2 := by
    rw [← (ebasis ok eo V).sum_sq_norm_inner_right, mul_pow, ← (ebasis ok eo V).sum_sq_norm_inner_right, Finset.mul_sum]
    refine Finset.sum_le_sum fun k _ => ?_
    have e : ⟪ebasis ok eo V k, kernE g V m2 x⟫ = (evals ok eo V k + m2) * ⟪ebasis ok eo V k, x⟫ := by
      rw [kernE_shift ok eo, inner_add_right, ← kernE_sym ok eo V, evals_apply, real_inner_smul_left, real_inner_smul_right]
      ring
    rw [e, norm_mul, mul_pow]
    have hb := C57_spectrum ok eo V hV (evals_eig ok eo V k)
    refine mul_le_mul_of_nonneg_right ?_ (sq_nonneg _)
    rw [Real.norm_eq_abs, sq_abs]
    exact pow_le_pow_left₀ (by linarith) (by linarith) 2
  exact le_of_sq_le_sq hsq (by positivity)

/-! ### `set_expansions` -/

omit ok eo in
theorem dress_unitary {u : Coords → Quad1} {U : Coords → Quad} (hu : ∀ x ∈ box g.L, ∀ mu, u x mu * (starRingEnd ℂ) (u x mu) = 1)
    (hU : ∀ x ∈ box g.L, ∀ mu, (U x mu)ᴴ * U x mu = 1) : ∀ x ∈ box g.L, ∀ mu, (dress u U x mu)ᴴ * dress u U x mu = 1 := by
  intro x hx mu
  have he : ((eta x mu : ℤ) : ℂ) * (eta x mu : ℂ) = 1 := by exact_mod_cast eta_sq x mu
  unfold dress
  rw [conjTranspose_smul, smul_mul_smul_comm, hU x hx mu, star_mul', Complex.star_def, map_intCast,
    show (starRingEnd ℂ) (u x mu) * (eta x mu : ℂ) * (u x mu * (eta x mu : ℂ)) = u x mu * (starRingEnd ℂ) (u x mu) * ((eta x mu : ℂ) * (eta x mu : ℂ)) by ring,
    hu x hx mu, he, one_mul, one_smul]

/-- mass between 0 and 1, noise not null -/
structure Fla.Phys (g : Geo) (sched : Nat → Nat → List Nat) (q : Fla) : Prop where
  pos : 0 < q.mass
  le_one : q.mass ≤ 1
  noise : nrm g sched q.eigNoise ≠ 0

/-- what `set_expansions` knows of the quark -/
structure SpecOf (q : Fla) (s : FlavSpec) : Prop where
  deg : s.deg = q.deg
  mass : s.mass = q.mass
  discretiz : s.discretiz = q.discretiz
  npf : s.npf = q.etas.length
  range : Remez.eigMin s ≤ Remez.eigMax s
  bound : Remez.eigMax s ≤ 11 / 10 * (16 + q.mass ^ 2)

theorem max_eigenval_glob (J : Junk) {sched : Nat → Nat → List Nat} (hl : ∀ rk, Reduce.Legal (sched rk)) {q : Fla} (hq : q.Ok g) (hp : q.Phys g sched) (conf : EoConf)
    {U : Coords → Quad} (hU : ∀ x ∈ box g.L, globEo g conf x = U x) (hun : ∀ x ∈ box g.L, ∀ mu, (U x mu)ᴴ * U x mu = 1) (niters : Nat) :
    ∃ e conf', max_eigenval g J sched q conf niters = some (e, conf') ∧ (∀ x ∈ box g.L, globEo g conf' x = U x) ∧ 11 / 10 * q.mass ^ 2 ≤ e ∧ e ≤ 11 / 10 * (16 + q.mass ^ 2) := by
  unfold max_eigenval
  rw [if_pos hq.stag]
  have hV : ∀ x ∈ box g.L, ∀ mu, (globEo g (add_backfield g J conf q.u1b) x mu)ᴴ * globEo g (add_backfield g J conf q.u1b) x mu = 1 := by
    intro x hx mu
    rw [add_back_glob ok eo J conf q.u1b x hx]
    exact dress_unitary hq.unit (fun x hx mu => by rw [hU x hx]; exact hun x hx mu) x hx mu
  have hm2 : 0 < q.mass ^ 2 := pow_pos hp.pos 2
  have hm1 : q.mass ^ 2 ≤ 1 := pow_le_one₀ hp.pos.le hp.le_one
  have h := C57_max_eigenval ok eo J hl (add_backfield g J conf q.u1b) (q.mass ^ 2) (16 + q.mass ^ 2) hm2 hm1 (by linarith)
    (kernE_upper ok eo _ hV hm2.le) niters q.eigNoise hp.noise
  simp only at h
  exact ⟨_, _, rfl, fun x hx => by rw [rem_back_glob ok eo J conf q.u1b hq.unit x hx, hU x hx], by linarith [h.1], by linarith [h.2.1]⟩

/-- C57: the part of `set_expansions` which looks for the largest eigenvalues does not crash, restores the configuration, and the range of each
flavour is not empty and does not exceed the theoretical bound (increased of a tenth). -/
theorem C57_ranges (J : Junk) {sched : Nat → Nat → List Nat} (hl : ∀ rk, Reduce.Legal (sched rk)) (qs : List Fla) (hq : ∀ q ∈ qs, q.Ok g) (hp : ∀ q ∈ qs, q.Phys g sched) (conf : EoConf)
    {U : Coords → Quad} (hU : ∀ x ∈ box g.L, globEo g conf x = U x) (hun : ∀ x ∈ box g.L, ∀ mu, (U x mu)ᴴ * U x mu = 1) :
    ∃ specs conf', maxEigs g J sched qs conf = some (specs, conf') ∧ (∀ x ∈ box g.L, globEo g conf' x = U x) ∧ List.Forall₂ SpecOf qs specs := by
  have key : ∀ (qs : List Fla) (done : List FlavSpec) (conf : EoConf), (∀ q ∈ qs, q.Ok g) → (∀ q ∈ qs, q.Phys g sched) → (∀ x ∈ box g.L, globEo g conf x = U x) →
      ∃ specs conf', qs.foldlM (fun (s : List FlavSpec × EoConf) q =>
        if q.discretiz = .OVERLAP then none else
        if Discretiz.ROOT_TM_CLOV.toInt ≠ 0 ∧ ¬ (q.deg ≠ q.etas.length * root_needed q.discretiz) then some (s.1 ++ [q.spec 0], s.2)
        else (max_eigenval g J sched q s.2 1000).map fun t => (s.1 ++ [q.spec t.1], t.2)) (done, conf) = some (done ++ specs, conf') ∧
        (∀ x ∈ box g.L, globEo g conf' x = U x) ∧ List.Forall₂ SpecOf qs specs := by
    intro qs
    induction qs with
    | nil =>
      intro done conf _ _ hU
      exact ⟨[], conf, by simp [pure], hU, .nil⟩
    | cons q qs ih =>
      intro done conf hq hp hU
      have hq0 := hq q (by simp)
      have hp0 := hp q (by simp)
      have hm2 : 0 < q.mass ^ 2 := pow_pos hp0.pos 2
      have hm1 : q.mass ^ 2 ≤ 1 := pow_le_one₀ hp0.pos.le hp0.le_one
      by_cases hc : Discretiz.ROOT_TM_CLOV.toInt ≠ 0 ∧ ¬ (q.deg ≠ q.etas.length * root_needed q.discretiz)
      · obtain ⟨specs, conf', k1, k2, k3⟩ := ih (done ++ [q.spec 0]) conf (fun q' h => hq q' (by simp [h])) (fun q' h => hp q' (by simp [h])) hU
        refine ⟨q.spec 0 :: specs, conf', ?_, k2, .cons ⟨rfl, rfl, rfl, rfl, ?_, ?_⟩ k3⟩
        · rw [List.foldlM_cons, hq0.stag, if_neg (by simp), if_pos (by rw [← hq0.stag]; exact hc)]
          refine Eq.trans ?_ (k1.trans ?_)
          · rfl
          · simp
        · unfold Remez.eigMax
          rw [if_pos (show _ ∧ ¬ ((q.spec 0).deg ≠ (q.spec 0).npf * root_needed (q.spec 0).discretiz) from hc)]
          show q.mass ^ 2 ≤ q.mass ^ 2 * (11 / 10)
          linarith
        · unfold Remez.eigMax
          rw [if_pos (show _ ∧ ¬ ((q.spec 0).deg ≠ (q.spec 0).npf * root_needed (q.spec 0).discretiz) from hc)]
          show q.mass ^ 2 * (11 / 10) ≤ _
          linarith
      · obtain ⟨e, conf1, e1, e2, e3, e4⟩ := max_eigenval_glob ok eo J hl hq0 hp0 conf hU hun 1000
        obtain ⟨specs, conf', k1, k2, k3⟩ := ih (done ++ [q.spec e]) conf1 (fun q' h => hq q' (by simp [h])) (fun q' h => hp q' (by simp [h])) e2
        refine ⟨q.spec e :: specs, conf', ?_, k2, .cons ⟨rfl, rfl, rfl, rfl, ?_, ?_⟩ k3⟩
        · rw [List.foldlM_cons, if_neg (by rw [hq0.stag]; simp), if_neg hc]
          simp only
          rw [e1]
          refine Eq.trans ?_ (k1.trans ?_)
          · rfl
          · simp
        · unfold Remez.eigMax
          rw [if_neg (show ¬ (_ ∧ ¬ ((q.spec e).deg ≠ (q.spec e).npf * root_needed (q.spec e).discretiz)) from hc)]
          show q.mass ^ 2 ≤ e
          linarith
        · unfold Remez.eigMax
          rw [if_neg (show ¬ (_ ∧ ¬ ((q.spec e).deg ≠ (q.spec e).npf * root_needed (q.spec e).discretiz)) from hc)]
          exact e4
  obtain ⟨specs, conf', h1, h2, h3⟩ := key qs [] conf hq hp hU
  exact ⟨specs, conf', by unfold maxEigs; rw [h1]; simp, h2, h3⟩

end

end

end Nissa.Rhmc
