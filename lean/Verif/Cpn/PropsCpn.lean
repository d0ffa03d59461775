import Verif.Cpn.Model

/-! # C97: the CP(N-1) program -/

set_option linter.all false

namespace Nissa.Cpn
open ComplexConjugate

variable {N : ℕ} {X D : Type} [Fintype X] [Fintype D]

theorem rsp_comm (a b : ON N) : rsp a b = rsp b a := by
  unfold rsp; exact Finset.sum_congr rfl fun n _ => by ring

/-- linear combinations with real coefficients -/
theorem rsp_comb (a b c d : ℝ) (u v : ON N) :
    rsp (fun n => u n * (a : ℂ) + v n * (b : ℂ)) (fun n => u n * (c : ℂ) + v n * (d : ℂ)) =
      a * c * rsp u u + (a * d + b * c) * rsp u v + b * d * rsp v v := by
  unfold rsp
  simp only [Finset.mul_sum, ← Finset.sum_add_distrib]
  refine Finset.sum_congr rfl fun n _ => ?_
  simp only [Complex.add_re, Complex.add_im, Complex.re_mul_ofReal, Complex.im_mul_ofReal]
  ring

theorem rsp_nonneg (a : ON N) : 0 ≤ rsp a a := by
  unfold rsp; exact Finset.sum_nonneg fun n _ => by nlinarith [mul_self_nonneg (a n).re, mul_self_nonneg (a n).im]

theorem rsp_zero {a : ON N} (h : rsp a a = 0) : a = 0 := by
  unfold rsp at h
  rw [Finset.sum_eq_zero_iff_of_nonneg (fun n _ => by nlinarith [mul_self_nonneg (a n).re, mul_self_nonneg (a n).im])] at h
  funext n
  have := h n (Finset.mem_univ n)
  have h1 : (a n).re = 0 := by nlinarith [mul_self_nonneg (a n).re, mul_self_nonneg (a n).im]
  have h2 : (a n).im = 0 := by nlinarith [mul_self_nonneg (a n).re, mul_self_nonneg (a n).im]
  exact Complex.ext h1 h2

/-- C97: the update of the position of a site keeps the norm of `zeta`, its orthogonality with the momentum and the norm of the momentum -/
theorem C97_constraints (eps : ℝ) (z p : ON N) (h1 : rsp z z = 1) (h0 : rsp z p = 0) :
    rsp (rotZ eps z p) (rotZ eps z p) = 1 ∧ rsp (rotZ eps z p) (rotP eps z p) = 0 ∧ rsp (rotP eps z p) (rotP eps z p) = rsp p p := by
  have hs : Real.sqrt (rsp p p) * Real.sqrt (rsp p p) = rsp p p := Real.mul_self_sqrt (rsp_nonneg p)
  have e : rotP eps z p = fun n => z n * ((-Real.sqrt (rsp p p) * Real.sin (eps * Real.sqrt (rsp p p)) : ℝ) : ℂ) + p n * (Real.cos (eps * Real.sqrt (rsp p p)) : ℂ) := by
    funext n; unfold rotP; ring
  rw [e]
  unfold rotZ
  dsimp only
  rw [rsp_comb, rsp_comb, rsp_comb, h1, h0]
  generalize Real.sqrt (rsp p p) = r at *
  rw [← hs]
  have hcs := Real.sin_sq_add_cos_sq (eps * r)
  by_cases hp : r = 0
  · subst hp; simp
  · generalize Real.sin (eps * r) = S at *
    generalize Real.cos (eps * r) = C at *
    refine ⟨?_, ?_, ?_⟩
    · have : S / r * (S / r) * (r * r) = S ^ 2 := by field_simp
      linear_combination hcs + this
    · field_simp; ring
    · linear_combination (r * r) * hcs

/-- C97: the momenta drawn and the forces are orthogonal to `zeta` -/
theorem C97_tangent (z w : ON N) (h : rsp w w = 1) : rsp w (orth z w) = 0 := by
  have e : orth z w = fun n => z n * ((1 : ℝ) : ℂ) + w n * ((-rsp w z : ℝ) : ℂ) := by
    funext n; unfold orth; rw [h]; push_cast; ring
  have e2 : w = fun n => z n * ((0 : ℝ) : ℂ) + w n * ((1 : ℝ) : ℂ) := by funext n; simp
  have : rsp w (orth z w) = rsp (fun n => z n * ((0 : ℝ) : ℂ) + w n * ((1 : ℝ) : ℂ)) (fun n => z n * ((1 : ℝ) : ℂ) + w n * ((-rsp w z : ℝ) : ℂ)) := by
    rw [← e, ← e2]
  rw [this, rsp_comb, h, rsp_comm z w]; ring

theorem csp_conj (a b : ON N) : csp b a = conj (csp a b) := by
  unfold csp; rw [map_sum]; exact Finset.sum_congr rfl fun n _ => by simp [mul_comm]

/-- the phase of a number -/
noncomputable def u (w : ℂ) : ℂ := Complex.exp ((Complex.arg w : ℂ) * Complex.I)

theorem u_eq {w : ℂ} (h : w ≠ 0) : u w = w / (‖w‖ : ℂ) := by
  have := Complex.norm_mul_exp_arg_mul_I w
  have hn : (‖w‖ : ℂ) ≠ 0 := by simpa using h
  unfold u; rw [eq_div_iff hn, mul_comm]; exact this

theorem u_mul {a b : ℂ} (ha : a ≠ 0) (hb : b ≠ 0) : u (a * b) = u a * u b := by
  rw [u_eq ha, u_eq hb, u_eq (mul_ne_zero ha hb), norm_mul]; push_cast; rw [mul_div_mul_comm]

theorem u_conj {a : ℂ} (ha : a ≠ 0) : u a * u (conj a) = 1 := by
  have hc : conj a ≠ 0 := by simpa using ha
  rw [u_eq ha, u_eq hc, Complex.norm_conj, div_mul_div_comm, Complex.mul_conj, Complex.normSq_eq_norm_sq]
  have hn : (‖a‖ : ℂ) ≠ 0 := by simpa using ha
  push_cast; field_simp

/-- C97: the geometric charge is an integer, for any configuration with no vanishing scalar product, on a torus -/
theorem C97_topology_integer (up : Fin 2 → Equiv.Perm X) (hc : ∀ x, up 0 (up 1 x) = up 1 (up 0 x)) (z : X → ON N)
    (h1 : ∀ x, csp (z x) (z (up 1 x)) ≠ 0) (h0 : ∀ x, csp (z x) (z (up 0 x)) ≠ 0) (hd : ∀ x, csp (z (up 0 (up 1 x))) (z x) ≠ 0) :
    ∃ k : ℤ, topology up z = k := by
  have hc' : ∀ x, (up 1).symm (up 1 ((up 0).symm x)) = (up 0).symm x := fun x => by simp
  have hcc : ∀ x, (up 0).symm (up 1 x) = up 1 ((up 0).symm x) := fun x => by
    rw [Equiv.symm_apply_eq, hc, Equiv.apply_symm_apply]
  have hcd : ∀ x, (up 1).symm (up 0 x) = up 0 ((up 1).symm x) := fun x => by
    rw [Equiv.symm_apply_eq, ← hc, Equiv.apply_symm_apply]
  have na : ∀ n, csp (z (up 1 n)) (z ((up 0).symm n)) ≠ 0 := fun n => by
    have := hd ((up 0).symm n); rwa [hc, Equiv.apply_symm_apply] at this
  have nb : ∀ n, csp (z n) (z (up 1 n)) ≠ 0 := h1
  have nc : ∀ n, csp (z ((up 0).symm n)) (z n) ≠ 0 := fun n => by
    have := h0 ((up 0).symm n); rwa [Equiv.apply_symm_apply] at this
  have nsym : ∀ {a b : ON N}, csp a b ≠ 0 → csp b a ≠ 0 := fun {a b} h => by rw [csp_conj]; simpa using h
  have nd : ∀ n, csp (z n) (z ((up 1).symm n)) ≠ 0 := fun n => by
    apply nsym; have := h1 ((up 1).symm n); rwa [Equiv.apply_symm_apply] at this
  have ne : ∀ n, csp (z (up 0 n)) (z n) ≠ 0 := fun n => nsym (h0 n)
  have nf : ∀ n, csp (z ((up 1).symm n)) (z (up 0 n)) ≠ 0 := fun n => by
    apply nsym; have := hd ((up 1).symm n); rwa [Equiv.apply_symm_apply] at this
  set S : ℝ := ∑ n, (Complex.arg (csp (z (up 1 n)) (z ((up 0).symm n)) * csp (z n) (z (up 1 n)) * csp (z ((up 0).symm n)) (z n)) +
    Complex.arg (csp (z n) (z ((up 1).symm n)) * csp (z (up 0 n)) (z n) * csp (z ((up 1).symm n)) (z (up 0 n)))) with hS
  have hE : Complex.exp ((S : ℂ) * Complex.I) = 1 := by
    rw [hS]
    push_cast
    rw [Finset.sum_mul, Complex.exp_sum]
    have : ∀ n, Complex.exp (((Complex.arg (csp (z (up 1 n)) (z ((up 0).symm n)) * csp (z n) (z (up 1 n)) * csp (z ((up 0).symm n)) (z n)) : ℂ) +
        (Complex.arg (csp (z n) (z ((up 1).symm n)) * csp (z (up 0 n)) (z n) * csp (z ((up 1).symm n)) (z (up 0 n))) : ℂ)) * Complex.I) =
        (u (csp (z (up 1 n)) (z ((up 0).symm n))) * u (csp (z n) (z (up 1 n))) * u (csp (z ((up 0).symm n)) (z n))) *
        (u (csp (z n) (z ((up 1).symm n))) * u (csp (z (up 0 n)) (z n)) * u (csp (z ((up 1).symm n)) (z (up 0 n)))) := fun n => by
      rw [add_mul, Complex.exp_add]
      rw [← u_mul (na n) (nb n), ← u_mul (mul_ne_zero (na n) (nb n)) (nc n), ← u_mul (nd n) (ne n), ← u_mul (mul_ne_zero (nd n) (ne n)) (nf n)]
      rfl
    rw [Finset.prod_congr rfl fun n _ => this n]
    simp only [Finset.prod_mul_distrib]
    have pd : ∏ n, u (csp (z n) (z ((up 1).symm n))) = ∏ n, u (csp (z (up 1 n)) (z n)) :=
      (Fintype.prod_equiv (up 1) _ _ fun n => by simp).symm
    have pc : ∏ n, u (csp (z ((up 0).symm n)) (z n)) = ∏ n, u (csp (z n) (z (up 0 n))) :=
      (Fintype.prod_equiv (up 0) _ _ fun n => by simp).symm
    have pf : ∏ n, u (csp (z ((up 1).symm n)) (z (up 0 n))) = ∏ n, u (csp (z ((up 0).symm n)) (z (up 1 n))) :=
      (Fintype.prod_equiv ((up 0).symm.trans (up 1)) _ _ fun n => by simp [hc]).symm
    rw [pd, pc, pf]
    have e1 : (∏ n, u (csp (z n) (z (up 1 n)))) * ∏ n, u (csp (z (up 1 n)) (z n)) = 1 := by
      rw [← Finset.prod_mul_distrib]
      exact Finset.prod_eq_one fun n _ => by rw [csp_conj (z n) (z (up 1 n))]; exact u_conj (nb n)
    have e2 : (∏ n, u (csp (z n) (z (up 0 n)))) * ∏ n, u (csp (z (up 0 n)) (z n)) = 1 := by
      rw [← Finset.prod_mul_distrib]
      exact Finset.prod_eq_one fun n _ => by rw [csp_conj (z n) (z (up 0 n))]; exact u_conj (h0 n)
    have e3 : (∏ n, u (csp (z (up 1 n)) (z ((up 0).symm n)))) * ∏ n, u (csp (z ((up 0).symm n)) (z (up 1 n))) = 1 := by
      rw [← Finset.prod_mul_distrib]
      exact Finset.prod_eq_one fun n _ => by rw [csp_conj (z (up 1 n)) (z ((up 0).symm n))]; exact u_conj (na n)
    generalize ∏ n, u (csp (z n) (z (up 1 n))) = x1 at *
    generalize ∏ n, u (csp (z (up 1 n)) (z n)) = x2 at *
    generalize ∏ n, u (csp (z n) (z (up 0 n))) = x3 at *
    generalize ∏ n, u (csp (z (up 0 n)) (z n)) = x4 at *
    generalize ∏ n, u (csp (z (up 1 n)) (z ((up 0).symm n))) = x5 at *
    generalize ∏ n, u (csp (z ((up 0).symm n)) (z (up 1 n))) = x6 at *
    calc x5 * x1 * x3 * (x2 * x4 * x6) = (x1 * x2) * (x3 * x4) * (x5 * x6) := by ring
      _ = 1 := by rw [e1, e2, e3]; ring
  obtain ⟨k, hk⟩ := Complex.exp_eq_one_iff.1 hE
  refine ⟨k, ?_⟩
  have hk' : (S : ℂ) = (k * (2 * Real.pi) : ℝ) := by
    have hI := Complex.I_ne_zero
    have : (S : ℂ) * Complex.I = (k * (2 * Real.pi) : ℝ) * Complex.I := by rw [hk]; push_cast; ring
    exact mul_right_cancel₀ hI this
  have hk2 : S = k * (2 * Real.pi) := by exact_mod_cast hk'
  show S / (2 * Real.pi) = k
  rw [hk2]; field_simp

/-- C97, the charge of the cold start; the hypotheses of the previous theorem are met -/
example : (∀ x y : ZMod 3 × ZMod 3, csp (N := 21) (fun n => if n = 0 then 1 else 0) (fun n => if n = 0 then 1 else 0) ≠ 0) := by
  intro x y; simp [csp]

/-- C97, against the comment of the code ("integrate for unitary length"): with no force, the positions advance for half of the length asked -/
theorem C97_violated_length (lam : ℝ) (up : D → Equiv.Perm X) (nsteps : ℕ) (hn : 0 < nsteps) (tl : ℝ) (s : State N X D) (hl : ∀ x mu, ‖s.l x mu‖ = 1) (x : X) (mu : D) :
    (integrate 0 lam up nsteps tl s).l x mu = s.l x mu * Complex.exp ((s.om x mu * (tl / 2) : ℝ) * Complex.I) := by
  have hom : ∀ (e : ℝ) (s : State N X D), (updateMomenta 0 up e s).om = s.om := fun e s => by
    funext y nu; simp [updateMomenta, lambdaForce]
  have hlm : ∀ (e : ℝ) (s : State N X D), (updateMomenta 0 up e s).l = s.l := fun e s => rfl
  have hrot : ∀ (e : ℝ) (s : State N X D) y nu, (updatePositions e s).l y nu = s.l y nu * Complex.exp ((e * s.om y nu : ℝ) * Complex.I) := fun e s y nu => by
    show _ * _ = _ * _
    congr 1
    generalize e * s.om y nu = a
    rw [Complex.exp_mul_I, ← Complex.ofReal_cos, ← Complex.ofReal_sin]
    generalize Real.cos a = c
    generalize Real.sin a = d
    apply Complex.ext <;> simp
  have hstep : ∀ (dt last : ℝ) (s : State N X D), (mdStep 0 lam up dt last s).om = s.om ∧
      ∀ y nu, (mdStep 0 lam up dt last s).l y nu = s.l y nu * Complex.exp ((dt * s.om y nu : ℝ) * Complex.I) := fun dt last s => by
    have o : (mdStep 0 lam up dt last s).om = s.om := by
      unfold mdStep; rw [hom]; show (updateMomenta 0 up _ _).om = _; rw [hom]; rfl
    refine ⟨o, fun y nu => ?_⟩
    unfold mdStep
    rw [hlm, hrot, hlm, hom, hrot]
    show _ * Complex.exp ((dt / 2 * s.om y nu : ℝ) * Complex.I) = _
    rw [mul_assoc, ← Complex.exp_add]; congr 2; push_cast; ring
  have hloop : ∀ (dt : ℝ) (k : ℕ) (s : State N X D) (y : X) (nu : D), (mdLoop 0 lam up dt k s).l y nu = s.l y nu * Complex.exp ((k * dt * s.om y nu : ℝ) * Complex.I) := by
    intro dt k
    induction k with
    | zero => intro s y nu; simp [mdLoop]
    | succ k ih =>
      intro s y nu
      rw [mdLoop, ih, (hstep _ _ _).2, (hstep _ _ _).1, mul_assoc, ← Complex.exp_add]; congr 2; push_cast; ring
  unfold integrate
  show lambdaUnitarize ((mdLoop 0 lam up _ nsteps _).l x mu) = _
  rw [hloop, hlm, hom]
  have hnn : (nsteps : ℝ) ≠ 0 := by exact_mod_cast hn.ne'
  have e : ((nsteps : ℝ) * (tl / nsteps / 2) * s.om x mu) = s.om x mu * (tl / 2) := by field_simp
  rw [e]
  unfold lambdaUnitarize
  have hno : ‖s.l x mu * Complex.exp ((s.om x mu * (tl / 2) : ℝ) * Complex.I)‖ = 1 := by
    rw [norm_mul, hl, Complex.norm_exp_ofReal_mul_I, one_mul]
  generalize s.l x mu * Complex.exp ((s.om x mu * (tl / 2) : ℝ) * Complex.I) = w at *
  have : w.re * w.re + w.im * w.im = 1 := by
    have := Complex.normSq_eq_norm_sq w
    rw [hno, Complex.normSq_apply] at this; simpa using this
  rw [this]; simp

/-- derivative of the energy along a curve -/
theorem energy_deriv (up : D → Equiv.Perm X) (zt : ℝ → X → ON N) (w : X → ON N) (lt : ℝ → X → D → ℂ) (m : X → D → ℂ)
    (hz : ∀ x n, HasDerivAt (fun t => zt t x n) (w x n) 0) (hl : ∀ x mu, HasDerivAt (fun t => lt t x mu) (m x mu) 0) :
    HasDerivAt (fun t => energy up (zt t) (lt t))
      (-(2 * ∑ x, ∑ mu, ∑ n, ((conj (w (up mu x) n) * zt 0 x n + conj (zt 0 (up mu x) n) * w x n) * lt 0 x mu + conj (zt 0 (up mu x) n) * zt 0 x n * m x mu).re)) 0 := by
  unfold energy
  refine HasDerivAt.neg (HasDerivAt.sub_const _ (HasDerivAt.const_mul _ ?_))
  refine HasDerivAt.fun_sum fun x _ => HasDerivAt.fun_sum fun mu _ => HasDerivAt.fun_sum fun n _ => ?_
  have hc : HasDerivAt (fun t => conj (zt t (up mu x) n)) (conj (w (up mu x) n)) 0 :=
    HasFDerivAt.comp_hasDerivAt (f := fun t => zt t (up mu x) n) (x := 0) (Complex.conjCLE.toContinuousLinearMap.hasFDerivAt (x := zt 0 (up mu x) n)) (hz (up mu x) n)
  exact (Complex.reCLM.hasFDerivAt).comp_hasDerivAt (0 : ℝ) ((hc.mul (hz x n)).mul (hl x mu))

/-- C97: the force on `lambda` is minus the derivative of the action, when the phases of the links move with velocity `v` -/
theorem C97_lambda_force (beta : ℝ) (up : D → Equiv.Perm X) (z : X → ON N) (l : X → D → ℂ) (v : X → D → ℝ) :
    HasDerivAt (fun t : ℝ => action beta up z (fun x mu => l x mu * Complex.exp ((t * v x mu : ℝ) * Complex.I))) (-∑ x, ∑ mu, v x mu * lambdaForce beta up z l x mu) 0 := by
  have hl : ∀ x mu, HasDerivAt (fun t : ℝ => l x mu * Complex.exp ((t * v x mu : ℝ) * Complex.I)) (l x mu * (v x mu * Complex.I)) 0 := fun x mu => by
    have h1 : HasDerivAt (fun t : ℝ => (((t * v x mu : ℝ) : ℂ)) * Complex.I) ((v x mu : ℂ) * Complex.I) 0 := by
      have : HasDerivAt (fun t : ℝ => t * v x mu) (v x mu) 0 := by simpa using (hasDerivAt_id (0 : ℝ)).mul_const (v x mu)
      exact this.ofReal_comp.mul_const Complex.I
    have h2 := (h1.cexp).const_mul (l x mu)
    simpa using h2
  have h := (energy_deriv up (fun _ => z) (fun _ _ => 0) _ _ (fun x n => hasDerivAt_const _ _) hl).div_const (1 / (N * beta))
  refine h.congr_deriv ?_
  rw [neg_div, neg_inj, div_div_eq_mul_div, div_one, mul_comm (2 : ℝ), mul_assoc, Finset.sum_mul]
  refine Finset.sum_congr rfl fun x _ => ?_
  rw [Finset.sum_mul]
  refine Finset.sum_congr rfl fun mu _ => ?_
  unfold lambdaForce
  rw [Finset.sum_mul, Finset.sum_mul, Finset.mul_sum]
  refine Finset.sum_congr rfl fun n _ => ?_
  simp
  ring

theorem rotZ_deriv (z p : ON N) (n : Fin N) : HasDerivAt (fun t : ℝ => rotZ t z p n) (p n) 0 := by
  have hm : HasDerivAt (fun t : ℝ => t * Real.sqrt (rsp p p)) (Real.sqrt (rsp p p)) 0 := by
    simpa using (hasDerivAt_id (0 : ℝ)).mul_const (Real.sqrt (rsp p p))
  have hc := (hm.cos).ofReal_comp.const_mul (z n)
  have hs := ((hm.sin).div_const (Real.sqrt (rsp p p))).ofReal_comp.const_mul (p n)
  show HasDerivAt (fun t : ℝ => z n * (Real.cos (t * Real.sqrt (rsp p p)) : ℂ) + p n * ((Real.sin (t * Real.sqrt (rsp p p)) / Real.sqrt (rsp p p) : ℝ) : ℂ)) (p n) 0
  refine (hc.add hs).congr_deriv ?_
  by_cases hr : Real.sqrt (rsp p p) = 0
  · have : rsp p p = 0 := by
      have := Real.mul_self_sqrt (rsp_nonneg p); rw [hr] at this; linarith
    rw [rsp_zero this]; simp [rsp]
  · simp [hr]

/-- C97: the force on `zeta` is minus the derivative of the action, when every site moves by the rotation of the code with a momentum tangent to the sphere -/
theorem C97_zeta_force (beta : ℝ) (up : D → Equiv.Perm X) (z : X → ON N) (l : X → D → ℂ) (p : X → ON N) (h0 : ∀ x, rsp (z x) (p x) = 0) :
    HasDerivAt (fun t : ℝ => action beta up (fun x => rotZ t (z x) (p x)) l) (-∑ x, rsp (p x) (zetaForce beta up z l x)) 0 := by
  have hz : ∀ x n, HasDerivAt (fun t : ℝ => rotZ t (z x) (p x) n) (p x n) 0 := fun x n => rotZ_deriv (z x) (p x) n
  have hz0 : ∀ x, rotZ 0 (z x) (p x) = z x := fun x => by funext n; simp [rotZ]
  have h := (energy_deriv up (fun t x => rotZ t (z x) (p x)) p (fun _ => l) (fun _ _ => 0) hz (fun x n => hasDerivAt_const _ _)).div_const (1 / (N * beta))
  refine h.congr_deriv ?_
  simp only [hz0]
  have hf : ∀ x, rsp (p x) (zetaForce beta up z l x) = rsp (p x) (siteStaple up z l x) * (beta * N) := fun x => by
    have e : zetaForce beta up z l x = fun n => siteStaple up z l x n * ((beta * N : ℝ) : ℂ) + z x n * ((-(rsp (z x) (siteStaple up z l x) / rsp (z x) (z x)) * (beta * N) : ℝ) : ℂ) := by
      funext n; unfold zetaForce orth; push_cast; ring
    rw [e]
    have hp := h0 x
    generalize -(rsp (z x) (siteStaple up z l x) / rsp (z x) (z x)) * (beta * N) = b
    generalize siteStaple up z l x = st
    generalize beta * N = c
    have : rsp (p x) (fun n => st n * (c : ℂ) + z x n * (b : ℂ)) = rsp (p x) st * c + rsp (z x) (p x) * b := by
      unfold rsp; simp only [Finset.sum_mul, ← Finset.sum_add_distrib]
      refine Finset.sum_congr rfl fun n _ => ?_
      simp only [Complex.add_re, Complex.add_im, Complex.re_mul_ofReal, Complex.im_mul_ofReal]; ring
    rw [this, hp]; ring
  rw [Finset.sum_congr rfl fun x _ => hf x, neg_div, neg_inj, div_div_eq_mul_div, div_one, mul_comm (N : ℝ) beta, ← Finset.sum_mul]
  congr 1
  -- the sum over the links regrouped by site
  have e1 : ∑ x, ∑ mu, ∑ n, ((conj (p (up mu x) n) * z x n + conj (z (up mu x) n) * p x n) * l x mu + conj (z (up mu x) n) * z x n * 0).re =
      (∑ mu, ∑ x, ∑ n, (conj (p (up mu x) n) * (z x n * l x mu)).re) + ∑ mu, ∑ x, ∑ n, (conj (p x n) * (z (up mu x) n * conj (l x mu))).re := by
    rw [Finset.sum_comm, ← Finset.sum_add_distrib]
    refine Finset.sum_congr rfl fun mu _ => ?_
    rw [← Finset.sum_add_distrib]
    refine Finset.sum_congr rfl fun x _ => ?_
    rw [← Finset.sum_add_distrib]
    refine Finset.sum_congr rfl fun n _ => ?_
    simp; ring
  have e2 : ∀ mu, ∑ x, ∑ n, (conj (p (up mu x) n) * (z x n * l x mu)).re = ∑ x, ∑ n, (conj (p x n) * (z ((up mu).symm x) n * l ((up mu).symm x) mu)).re := fun mu =>
    Fintype.sum_equiv (up mu) _ _ fun x => by simp
  rw [e1, Finset.sum_congr rfl fun mu _ => e2 mu, ← Finset.sum_add_distrib, Finset.mul_sum]
  have e3 : ∀ x, rsp (p x) (siteStaple up z l x) = 2 * ∑ mu, ∑ n, ((conj (p x n) * (z ((up mu).symm x) n * l ((up mu).symm x) mu)).re + (conj (p x n) * (z (up mu x) n * conj (l x mu))).re) := fun x => by
    rw [Finset.sum_comm, Finset.mul_sum]
    unfold rsp siteStaple
    refine Finset.sum_congr rfl fun n _ => ?_
    have : (p x n).re * ((∑ mu, (z (up mu x) n * conj (l x mu) + z ((up mu).symm x) n * l ((up mu).symm x) mu)) * 2).re +
        (p x n).im * ((∑ mu, (z (up mu x) n * conj (l x mu) + z ((up mu).symm x) n * l ((up mu).symm x) mu)) * 2).im =
        2 * (conj (p x n) * ∑ mu, (z (up mu x) n * conj (l x mu) + z ((up mu).symm x) n * l ((up mu).symm x) mu)).re := by simp; ring
    rw [this, Finset.mul_sum, Complex.re_sum]
    congr 1
    refine Finset.sum_congr rfl fun mu _ => ?_
    rw [mul_add, Complex.add_re]; ring
  rw [Finset.sum_congr rfl fun x _ => e3 x, ← Finset.mul_sum, ← Finset.mul_sum, Finset.sum_comm (s := (Finset.univ : Finset X))]
  congr 1
  refine Finset.sum_congr rfl fun mu _ => ?_
  rw [← Finset.sum_add_distrib]
  exact Finset.sum_congr rfl fun x _ => by rw [← Finset.sum_add_distrib]

/-- C97: energy and charge do not change under a gauge transformation -/
theorem C97_gauge (up : D → Equiv.Perm X) (z : X → ON N) (l : X → D → ℂ) (g : X → ℂ) (hg : ∀ x, conj (g x) * g x = 1) :
    energy up (fun x n => z x n * g x) (fun x mu => g (up mu x) * l x mu * conj (g x)) = energy up z l := by
  unfold energy
  congr 3
  refine Finset.sum_congr rfl fun x _ => Finset.sum_congr rfl fun mu _ => Finset.sum_congr rfl fun n _ => ?_
  congr 1
  have h1 := hg x
  have h2 := hg (up mu x)
  simp only [map_mul]
  linear_combination (conj (z (up mu x) n) * z x n * l x mu * (conj (g (up mu x)) * g (up mu x))) * h1 + (conj (z (up mu x) n) * z x n * l x mu) * h2

/-- C97: the charge does not depend on the phases of the `zeta` -/
theorem C97_topology_gauge (up : Fin 2 → Equiv.Perm X) (z : X → ON N) (g : X → ℂ) (hg : ∀ x, conj (g x) * g x = 1) :
    topology up (fun x n => z x n * g x) = topology up z := by
  have hcsp : ∀ a b : X, csp (fun n => z a n * g a) (fun n => z b n * g b) = conj (g a) * g b * csp (z a) (z b) := fun a b => by
    unfold csp; rw [Finset.mul_sum]; exact Finset.sum_congr rfl fun n _ => by rw [map_mul]; ring
  unfold topology
  simp only [hcsp]
  congr 1
  refine Finset.sum_congr rfl fun n _ => ?_
  congr 2
  · linear_combination (csp (z (up 1 n)) (z ((up 0).symm n)) * csp (z n) (z (up 1 n)) * csp (z ((up 0).symm n)) (z n)) *
      ((conj (g (up 1 n)) * g (up 1 n)) * (conj (g ((up 0).symm n)) * g ((up 0).symm n)) * hg n + (conj (g (up 1 n)) * g (up 1 n)) * hg ((up 0).symm n) + hg (up 1 n))
  · linear_combination (csp (z n) (z ((up 1).symm n)) * csp (z (up 0 n)) (z n) * csp (z ((up 1).symm n)) (z (up 0 n))) *
      ((conj (g (up 0 n)) * g (up 0 n)) * (conj (g ((up 1).symm n)) * g ((up 1).symm n)) * hg n + (conj (g (up 0 n)) * g (up 0 n)) * hg ((up 1).symm n) + hg (up 0 n))

/-- C97: the action of the cold configuration is zero -/
theorem C97_cold (beta : ℝ) (up : D → Equiv.Perm X) : action beta up (fun _ (n : Fin 21) => if n = 0 then 1 else 0) (fun _ _ => 1) = 0 := by
  have h : ∀ n : Fin 21, (conj (if n = 0 then (1 : ℂ) else 0) * (if n = 0 then 1 else 0) * 1).re = if n = 0 then 1 else 0 := fun n => by
    by_cases h : n = 0 <;> simp [h]
  unfold action energy; simp only [h]; simp; left; ring

/-- C97: a rotation can be undone by the reversed momentum -/
theorem C97_reversible (eps : ℝ) (z p : ON N) (h1 : rsp z z = 1) (h0 : rsp z p = 0) :
    rotZ eps (rotZ eps z p) (fun n => -rotP eps z p n) = z ∧ rotP eps (rotZ eps z p) (fun n => -rotP eps z p n) = fun n => -p n := by
  have hr : rsp (fun n => -rotP eps z p n) (fun n => -rotP eps z p n) = rsp p p := by
    rw [← (C97_constraints eps z p h1 h0).2.2]; unfold rsp; exact Finset.sum_congr rfl fun n _ => by simp
  have hz : ∀ q : ON N, rotZ eps q (fun n => -rotP eps z p n) = fun n => q n * (Real.cos (eps * Real.sqrt (rsp p p)) : ℂ) + -rotP eps z p n * ((Real.sin (eps * Real.sqrt (rsp p p)) / Real.sqrt (rsp p p) : ℝ) : ℂ) := fun q => by
    unfold rotZ; rw [hr]
  have hp : ∀ q : ON N, rotP eps q (fun n => -rotP eps z p n) = fun n => -rotP eps z p n * (Real.cos (eps * Real.sqrt (rsp p p)) : ℂ) + q n * ((-Real.sqrt (rsp p p) * Real.sin (eps * Real.sqrt (rsp p p)) : ℝ) : ℂ) := fun q => by
    conv_lhs => unfold rotP
    funext n
    show _ * (Real.cos (eps * Real.sqrt (rsp (fun n => -rotP eps z p n) (fun n => -rotP eps z p n))) : ℂ) + q n * ((-Real.sqrt (rsp (fun n => -rotP eps z p n) (fun n => -rotP eps z p n)) * Real.sin (eps * Real.sqrt (rsp (fun n => -rotP eps z p n) (fun n => -rotP eps z p n))) : ℝ) : ℂ) = _
    rw [hr]; rfl
  rw [hz, hp]
  by_cases hn : Real.sqrt (rsp p p) = 0
  · have hpp : rsp p p = 0 := by have := Real.mul_self_sqrt (rsp_nonneg p); rw [hn] at this; linarith
    have := rsp_zero hpp
    subst this
    constructor <;> (funext n; simp [rotZ, rotP, rsp])
  · have hZ : rotZ eps z p = fun n => z n * (Real.cos (eps * Real.sqrt (rsp p p)) : ℂ) + p n * ((Real.sin (eps * Real.sqrt (rsp p p)) / Real.sqrt (rsp p p) : ℝ) : ℂ) := rfl
    have hP : rotP eps z p = fun n => p n * (Real.cos (eps * Real.sqrt (rsp p p)) : ℂ) + z n * ((-Real.sqrt (rsp p p) * Real.sin (eps * Real.sqrt (rsp p p)) : ℝ) : ℂ) := rfl
    rw [hZ, hP]
    have hcs := Real.sin_sq_add_cos_sq (eps * Real.sqrt (rsp p p))
    generalize Real.sin (eps * Real.sqrt (rsp p p)) = S at *
    generalize Real.cos (eps * Real.sqrt (rsp p p)) = C at *
    generalize Real.sqrt (rsp p p) = r at *
    have hrc : (r : ℂ) ≠ 0 := by exact_mod_cast hn
    have hcs' : (S : ℂ) ^ 2 + (C : ℂ) ^ 2 = 1 := by exact_mod_cast hcs
    have hq : (S : ℂ) / r * r = S := by field_simp
    constructor
    · funext n; push_cast; linear_combination z n * hcs' + (z n * S) * hq
    · funext n; push_cast; linear_combination (-p n) * hcs' - (p n * S) * hq

/-- the hypotheses of `C97_constraints` are met -/
example : rsp (N := 2) (fun n => if n = 0 then 1 else 0) (fun n => if n = 0 then 1 else 0) = 1 ∧
    rsp (N := 2) (fun n => if n = 0 then 1 else 0) (fun n => if n = 0 then Complex.I else 3) = 0 := by
  constructor <;> simp [rsp, Fin.sum_univ_two]

/-- C97, the case: a link with momentum `2π`, asked to move for a time 1, makes half a turn and not a turn -/
theorem C97_violated_half_turn (lam : ℝ) (up : D → Equiv.Perm X) (nsteps : ℕ) (hn : 0 < nsteps) (z p : X → ON N) (x : X) (mu : D) :
    (integrate 0 lam up nsteps 1 ⟨z, fun _ _ => 1, p, fun _ _ => 2 * Real.pi⟩).l x mu = -1 := by
  rw [C97_violated_length lam up nsteps hn 1 _ (fun x mu => by simp) x mu]
  have : ((2 * Real.pi * (1 / 2) : ℝ) : ℂ) = Real.pi := by push_cast; ring
  rw [this, Complex.exp_pi_mul_I]; simp

/-- the state with the momenta reversed -/
def flip (s : State N X D) : State N X D := { s with p := fun x n => -s.p x n, om := fun x mu => -s.om x mu }

/-- the sites are normalized and the momenta tangent -/
def Constrained (s : State N X D) : Prop := ∀ x, rsp (s.z x) (s.z x) = 1 ∧ rsp (s.z x) (s.p x) = 0

theorem constrained_momenta (beta : ℝ) (up : D → Equiv.Perm X) (e : ℝ) {s : State N X D} (h : Constrained s) : Constrained (updateMomenta beta up e s) := fun x => by
  refine ⟨(h x).1, ?_⟩
  have ht := C97_tangent (siteStaple up s.z s.l x) (s.z x) (h x).1
  have h0 := (h x).2
  show rsp (s.z x) (fun n => s.p x n + orth (siteStaple up s.z s.l x) (s.z x) n * ((beta * N : ℝ) : ℂ) * e) = 0
  generalize orth (siteStaple up s.z s.l x) (s.z x) = f at *
  generalize beta * N = c
  have : rsp (s.z x) (fun n => s.p x n + f n * (c : ℂ) * e) = rsp (s.z x) (s.p x) + rsp (s.z x) f * (c * e) := by
    unfold rsp; simp only [Finset.sum_mul, ← Finset.sum_add_distrib]
    refine Finset.sum_congr rfl fun n _ => ?_
    simp only [Complex.add_re, Complex.add_im, Complex.re_mul_ofReal, Complex.im_mul_ofReal]; ring
  rw [this, ht, h0]; ring

theorem constrained_positions (e : ℝ) {s : State N X D} (h : Constrained s) : Constrained (updatePositions e s) := fun x =>
  ⟨(C97_constraints e _ _ (h x).1 (h x).2).1, (C97_constraints e _ _ (h x).1 (h x).2).2.1⟩

theorem momenta_flip (beta : ℝ) (up : D → Equiv.Perm X) (e : ℝ) (s : State N X D) : updateMomenta beta up e (flip (updateMomenta beta up e s)) = flip s := by
  unfold flip
  show State.mk _ _ _ _ = _
  congr 1
  · funext x n; show -(s.p x n + _) + _ = _; simp [updateMomenta]
  · funext x mu; show -(s.om x mu + _) + _ = _; simp [updateMomenta]

theorem positions_flip (e : ℝ) (s : State N X D) (h : Constrained s) : updatePositions e (flip (updatePositions e s)) = flip s := by
  unfold flip
  show State.mk _ _ _ _ = _
  congr 1
  · funext x; exact (C97_reversible e _ _ (h x).1 (h x).2).1
  · funext x mu
    show s.l x mu * ⟨Real.cos (e * s.om x mu), Real.sin (e * s.om x mu)⟩ * ⟨Real.cos (e * -s.om x mu), Real.sin (e * -s.om x mu)⟩ = s.l x mu
    rw [mul_neg, Real.cos_neg, Real.sin_neg]
    have := Real.sin_sq_add_cos_sq (e * s.om x mu)
    generalize Real.sin (e * s.om x mu) = S at *
    generalize Real.cos (e * s.om x mu) = C at *
    have h1 : (⟨C, S⟩ : ℂ) * ⟨C, -S⟩ = 1 := by apply Complex.ext <;> simp <;> nlinarith
    rw [mul_assoc, h1, mul_one]
  · funext x; exact (C97_reversible e _ _ (h x).1 (h x).2).2

/-- an update: of the momenta, `inl`, or of the positions, `inr` -/
noncomputable def op (beta : ℝ) (up : D → Equiv.Perm X) (o : ℝ ⊕ ℝ) (s : State N X D) : State N X D :=
  match o with
  | .inl e => updateMomenta beta up e s
  | .inr e => updatePositions e s

/-- a sequence of updates -/
noncomputable def run (beta : ℝ) (up : D → Equiv.Perm X) : List (ℝ ⊕ ℝ) → State N X D → State N X D
  | [], s => s
  | o :: w, s => run beta up w (op beta up o s)

theorem run_append (beta : ℝ) (up : D → Equiv.Perm X) (v w : List (ℝ ⊕ ℝ)) (s : State N X D) : run beta up (v ++ w) s = run beta up w (run beta up v s) := by
  induction v generalizing s with
  | nil => rfl
  | cons o v ih => exact ih _

theorem op_constrained (beta : ℝ) (up : D → Equiv.Perm X) (o : ℝ ⊕ ℝ) {s : State N X D} (h : Constrained s) : Constrained (op beta up o s) := by
  cases o
  · exact constrained_momenta beta up _ h
  · exact constrained_positions _ h

theorem run_constrained (beta : ℝ) (up : D → Equiv.Perm X) (w : List (ℝ ⊕ ℝ)) {s : State N X D} (h : Constrained s) : Constrained (run beta up w s) := by
  induction w generalizing s with
  | nil => exact h
  | cons o w ih => exact ih (op_constrained beta up o h)

theorem run_reverse (beta : ℝ) (up : D → Equiv.Perm X) (w : List (ℝ ⊕ ℝ)) (s : State N X D) (h : Constrained s) : run beta up w.reverse (flip (run beta up w s)) = flip s := by
  induction w generalizing s with
  | nil => rfl
  | cons o w ih =>
    rw [List.reverse_cons, run_append]
    show run beta up [o] (run beta up w.reverse (flip (run beta up w (op beta up o s)))) = _
    rw [ih _ (op_constrained beta up o h)]
    cases o
    · exact momenta_flip beta up _ s
    · exact positions_flip _ s h

/-- the updates of the main loop -/
noncomputable def word (lam dt : ℝ) : ℕ → List (ℝ ⊕ ℝ)
  | 0 => []
  | k + 1 => [.inr (dt / 2), .inl ((1 - 2 * lam) * dt), .inr (dt / 2), .inl (if k = 0 then dt * lam else 2 * lam * dt)] ++ word lam dt k

theorem mdLoop_run (beta lam : ℝ) (up : D → Equiv.Perm X) (dt : ℝ) (k : ℕ) (s : State N X D) : mdLoop beta lam up dt k s = run beta up (word lam dt k) s := by
  induction k generalizing s with
  | zero => rfl
  | succ k ih => rw [mdLoop, ih, word, run_append]; rfl

theorem word_eq (lam dt : ℝ) (k : ℕ) : word lam dt (k + 1) =
    [.inr (dt / 2), .inl ((1 - 2 * lam) * dt), .inr (dt / 2)] ++ (List.replicate k [.inl (2 * lam * dt), .inr (dt / 2), .inl ((1 - 2 * lam) * dt), .inr (dt / 2)]).flatten ++ [.inl (dt * lam)] := by
  induction k with
  | zero => simp [word]
  | succ k ih => rw [word, ih, List.replicate_succ, List.flatten_cons]; simp

theorem rot_word {α : Type} (a m : List α) (k : ℕ) : m ++ (List.replicate k (a ++ m)).flatten = (List.replicate k (m ++ a)).flatten ++ m := by
  induction k with
  | zero => simp
  | succ k ih =>
    rw [List.replicate_succ, List.flatten_cons, List.replicate_succ, List.flatten_cons, List.append_assoc (m ++ a), ← ih]
    simp

theorem word_palindrome (lam dt : ℝ) (k : ℕ) : ((.inl (dt * lam) :: word lam dt (k + 1) : List (ℝ ⊕ ℝ))).reverse = .inl (dt * lam) :: word lam dt (k + 1) := by
  rw [word_eq]
  have h := rot_word [Sum.inl (2 * lam * dt)] [Sum.inr (dt / 2), Sum.inl ((1 - 2 * lam) * dt), Sum.inr (dt / 2)] k
  simp only [List.singleton_append] at h
  simp only [List.cons_append, List.nil_append, List.reverse_cons, List.reverse_append, List.reverse_flatten, List.map_replicate, List.reverse_replicate, List.reverse_nil] at h ⊢
  simp only [List.append_assoc, List.cons_append, List.nil_append, List.cons.injEq, true_and] at h ⊢
  have h2 := congrArg (· ++ [Sum.inl (dt * lam)]) h
  simp only [List.append_assoc, List.cons_append, List.nil_append] at h2
  exact h2.symm

/-- C97: the integrator is reversible: from the final positions with the reversed momenta it goes back to the initial state with the momenta reversed; the length is that used by the code -/
theorem C97_reversible_trajectory (beta lam : ℝ) (up : D → Equiv.Perm X) (dt : ℝ) (nsteps : ℕ) (hn : 0 < nsteps) (s : State N X D) (h : Constrained s) :
    let T := fun s => mdLoop beta lam up dt nsteps (updateMomenta beta up (dt * lam) s)
    T (flip (T s)) = flip s ∧ Constrained (T s) := by
  obtain ⟨k, rfl⟩ := Nat.exists_eq_succ_of_ne_zero hn.ne'
  have hT : ∀ s : State N X D, mdLoop beta lam up dt (k + 1) (updateMomenta beta up (dt * lam) s) = run beta up (.inl (dt * lam) :: word lam dt (k + 1)) s := fun s => by
    rw [mdLoop_run]; rfl
  dsimp only
  rw [Nat.succ_eq_add_one]
  simp only [hT]
  refine ⟨?_, run_constrained _ _ _ h⟩
  have := run_reverse beta up (.inl (dt * lam) :: word lam dt (k + 1)) s h
  rwa [word_palindrome] at this

/-- C97: the final normalization gives normalized sites and unitary links -/
theorem C97_normalized (s : State N X D) (hz : ∀ x, s.z x ≠ 0) (hl : ∀ x mu, s.l x mu ≠ 0) :
    (∀ x, rsp ((normalizeAll s).z x) ((normalizeAll s).z x) = 1) ∧ ∀ x mu, ‖(normalizeAll s).l x mu‖ = 1 := by
  constructor
  · intro x
    have hp : 0 < rsp (s.z x) (s.z x) := lt_of_le_of_ne (rsp_nonneg _) fun h => hz x (rsp_zero h.symm)
    show rsp (fun n => s.z x n * ((1 / Real.sqrt (rsp (s.z x) (s.z x)) : ℝ) : ℂ)) (fun n => s.z x n * ((1 / Real.sqrt (rsp (s.z x) (s.z x)) : ℝ) : ℂ)) = 1
    generalize hr : Real.sqrt (rsp (s.z x) (s.z x)) = r
    have hrr : r * r = rsp (s.z x) (s.z x) := by rw [← hr]; exact Real.mul_self_sqrt hp.le
    have hr0 : r ≠ 0 := fun h => by rw [h] at hrr; linarith
    have := rsp_comb (1 / r) 0 (1 / r) 0 (s.z x) (s.z x)
    simp only [Complex.ofReal_zero, mul_zero, add_zero, zero_mul] at this
    rw [this, ← hrr]; field_simp
  · intro x mu
    show ‖s.l x mu * ((1 / Real.sqrt ((s.l x mu).re * (s.l x mu).re + (s.l x mu).im * (s.l x mu).im) : ℝ) : ℂ)‖ = 1
    have : Real.sqrt ((s.l x mu).re * (s.l x mu).re + (s.l x mu).im * (s.l x mu).im) = ‖s.l x mu‖ := by
      rw [← Complex.normSq_apply, Complex.normSq_eq_norm_sq]; exact Real.sqrt_sq (norm_nonneg _)
    rw [this, norm_mul, Complex.norm_real, Real.norm_eq_abs, abs_of_nonneg (by positivity)]
    have : ‖s.l x mu‖ ≠ 0 := by simpa using hl x mu
    field_simp

theorem run_links (beta : ℝ) (up : D → Equiv.Perm X) (w : List (ℝ ⊕ ℝ)) (s : State N X D) (h : ∀ x mu, ‖s.l x mu‖ = 1) (x : X) (mu : D) : ‖(run beta up w s).l x mu‖ = 1 := by
  induction w generalizing s with
  | nil => exact h x mu
  | cons o w ih =>
    refine ih _ fun y nu => ?_
    cases o with
    | inl e => exact h y nu
    | inr e =>
      show ‖s.l y nu * ⟨Real.cos (e * s.om y nu), Real.sin (e * s.om y nu)⟩‖ = 1
      have h1 : ‖(⟨Real.cos (e * s.om y nu), Real.sin (e * s.om y nu)⟩ : ℂ)‖ = 1 := by
        have := Real.sin_sq_add_cos_sq (e * s.om y nu)
        have h2 := Complex.normSq_eq_norm_sq (⟨Real.cos (e * s.om y nu), Real.sin (e * s.om y nu)⟩ : ℂ)
        rw [Complex.normSq_apply] at h2
        have h3 : ‖(⟨Real.cos (e * s.om y nu), Real.sin (e * s.om y nu)⟩ : ℂ)‖ ^ 2 = 1 := by rw [← h2]; show _ * _ + _ * _ = (1 : ℝ); nlinarith
        exact (pow_eq_one_iff_of_nonneg (norm_nonneg _) two_ne_zero).1 h3
      rw [norm_mul, h, h1, one_mul]

theorem normalize_id (s : State N X D) (hc : Constrained s) (h : ∀ x mu, ‖s.l x mu‖ = 1) : normalizeAll s = s := by
  unfold normalizeAll
  obtain ⟨z, l, p, om⟩ := s
  congr 1
  · funext x n
    show z x n * _ = _
    have : rsp (z x) (z x) = 1 := (hc x).1
    rw [this]; simp
  · funext x mu
    show l x mu * _ = _
    have : (l x mu).re * (l x mu).re + (l x mu).im * (l x mu).im = 1 := by
      have := Complex.normSq_eq_norm_sq (l x mu)
      rw [h x mu, Complex.normSq_apply] at this; simpa using this
    rw [this]; simp

/-- C97: a trajectory of the code, run again from its end with the momenta reversed, gives the initial configuration, with the momenta reversed -/
theorem C97_reversible_integrate (beta lam : ℝ) (up : D → Equiv.Perm X) (nsteps : ℕ) (hn : 0 < nsteps) (tl : ℝ) (s : State N X D) (h : Constrained s) (hl : ∀ x mu, ‖s.l x mu‖ = 1) :
    integrate beta lam up nsteps tl (flip (integrate beta lam up nsteps tl s)) = flip s := by
  obtain ⟨hr, hT⟩ := C97_reversible_trajectory beta lam up (tl / nsteps / 2) nsteps hn s h
  have hf : ∀ s : State N X D, integrate beta lam up nsteps tl s = normalizeAll (mdLoop beta lam up (tl / nsteps / 2) nsteps (updateMomenta beta up (tl / nsteps / 2 * lam) s)) := fun s => rfl
  have hnl : ∀ s : State N X D, (∀ x mu, ‖s.l x mu‖ = 1) → ∀ x mu, ‖(mdLoop beta lam up (tl / nsteps / 2) nsteps (updateMomenta beta up (tl / nsteps / 2 * lam) s)).l x mu‖ = 1 := fun s hs x mu => by
    rw [mdLoop_run]; exact run_links _ _ _ (updateMomenta beta up (tl / nsteps / 2 * lam) s) (fun x mu => hs x mu) x mu
  dsimp only at hr hT
  rw [hf s, normalize_id _ hT (hnl s hl), hf, hr]
  refine normalize_id _ (fun x => ⟨(h x).1, ?_⟩) hl
  show rsp (s.z x) (fun n => -s.p x n) = 0
  have h0 := (h x).2
  unfold rsp at h0 ⊢
  rw [← neg_eq_zero, ← Finset.sum_neg_distrib] at h0
  rw [← h0]; exact Finset.sum_congr rfl fun n _ => by simp [add_comm]

theorem word_sums (lam dt : ℝ) (k : ℕ) : ((word lam dt (k + 1)).map (Sum.elim id fun _ => 0)).sum = (k + 1) * dt - dt * lam ∧
    ((word lam dt (k + 1)).map (Sum.elim (fun _ => 0) id)).sum = (k + 1) * dt := by
  induction k with
  | zero => constructor <;> simp [word] <;> ring
  | succ k ih =>
    rw [word, List.map_append, List.sum_append, List.map_append, List.sum_append, ih.1, ih.2]
    constructor <;> simp <;> ring

/-- C97: a trajectory is a symmetric sequence of updates; those of the momenta and those of the positions both last, in all, for half of the length given -/
theorem C97_scheme (beta lam : ℝ) (up : D → Equiv.Perm X) (nsteps : ℕ) (hn : 0 < nsteps) (tl : ℝ) :
    ∃ w : List (ℝ ⊕ ℝ), w.reverse = w ∧ (w.map (Sum.elim id fun _ => 0)).sum = tl / 2 ∧ (w.map (Sum.elim (fun _ => 0) id)).sum = tl / 2 ∧
      ∀ s : State N X D, integrate beta lam up nsteps tl s = normalizeAll (run beta up w s) := by
  obtain ⟨k, rfl⟩ := Nat.exists_eq_succ_of_ne_zero hn.ne'
  have hk : ((k : ℝ) + 1) ≠ 0 := by positivity
  refine ⟨.inl (tl / (k + 1 : ℕ) / 2 * lam) :: word lam (tl / (k + 1 : ℕ) / 2) (k + 1), word_palindrome _ _ _, ?_, ?_, fun s => ?_⟩
  · rw [List.map_cons, List.sum_cons, (word_sums _ _ _).1]; push_cast; simp; field_simp
  · rw [List.map_cons, List.sum_cons, (word_sums _ _ _).2]; push_cast; simp; field_simp
  · unfold integrate; dsimp only; rw [mdLoop_run]; rfl

/-- C97: when positions and momenta move together, each with its update, the sum of the action and of the action of the momenta is stationary -/
theorem C97_energy (beta : ℝ) (up : D → Equiv.Perm X) (s : State N X D) (h : Constrained s) :
    HasDerivAt (fun t : ℝ => action beta up (updatePositions t s).z (updatePositions t s).l + momentaAction (updateMomenta beta up t s).p (updateMomenta beta up t s).om) 0 0 := by
  have hz : ∀ x n, HasDerivAt (fun t : ℝ => rotZ t (s.z x) (s.p x) n) (s.p x n) 0 := fun x n => rotZ_deriv (s.z x) (s.p x) n
  have hl : ∀ x mu, HasDerivAt (fun t : ℝ => (updatePositions t s).l x mu) (s.l x mu * (s.om x mu * Complex.I)) 0 := fun x mu => by
    have h1 : HasDerivAt (fun t : ℝ => (((t * s.om x mu : ℝ) : ℂ)) * Complex.I) ((s.om x mu : ℂ) * Complex.I) 0 := by
      have : HasDerivAt (fun t : ℝ => t * s.om x mu) (s.om x mu) 0 := by simpa using (hasDerivAt_id (0 : ℝ)).mul_const (s.om x mu)
      exact this.ofReal_comp.mul_const Complex.I
    have h2 := (h1.cexp).const_mul (s.l x mu)
    have e : (fun t : ℝ => (updatePositions t s).l x mu) = fun t : ℝ => s.l x mu * Complex.exp ((t * s.om x mu : ℝ) * Complex.I) := by
      funext t
      show _ * _ = _ * _
      congr 1
      generalize t * s.om x mu = a
      rw [Complex.exp_mul_I, ← Complex.ofReal_cos, ← Complex.ofReal_sin]
      generalize Real.cos a = c
      generalize Real.sin a = d
      apply Complex.ext <;> simp
    rw [e]
    simpa using h2
  have hz0 : ∀ x, rotZ 0 (s.z x) (s.p x) = s.z x := fun x => by funext n; simp [rotZ]
  have hl0 : ∀ x mu, (updatePositions 0 s).l x mu = s.l x mu := fun x mu => by
    show s.l x mu * ⟨Real.cos (0 * s.om x mu), Real.sin (0 * s.om x mu)⟩ = _
    rw [zero_mul, Real.cos_zero, Real.sin_zero]; apply Complex.ext <;> simp
  have d := (energy_deriv up (fun t x => rotZ t (s.z x) (s.p x)) s.p (fun t => (updatePositions t s).l) _ hz hl).div_const (1 / (N * beta))
  have dz := (energy_deriv up (fun t x => rotZ t (s.z x) (s.p x)) s.p (fun _ => s.l) (fun _ _ => 0) hz (fun x n => hasDerivAt_const _ _)).div_const (1 / (N * beta))
  have dl := (energy_deriv up (fun _ => s.z) (fun _ _ => 0) (fun t x mu => s.l x mu * Complex.exp ((t * s.om x mu : ℝ) * Complex.I)) (fun x mu => s.l x mu * (s.om x mu * Complex.I)) (fun x n => hasDerivAt_const _ _) (fun x mu => by
    have h1 : HasDerivAt (fun t : ℝ => (((t * s.om x mu : ℝ) : ℂ)) * Complex.I) ((s.om x mu : ℂ) * Complex.I) 0 := by
      have : HasDerivAt (fun t : ℝ => t * s.om x mu) (s.om x mu) 0 := by simpa using (hasDerivAt_id (0 : ℝ)).mul_const (s.om x mu)
      exact this.ofReal_comp.mul_const Complex.I
    simpa using (h1.cexp).const_mul (s.l x mu))).div_const (1 / (N * beta))
  have uz := dz.unique (C97_zeta_force beta up s.z s.l s.p fun x => (h x).2)
  have ul := dl.unique (C97_lambda_force beta up s.z s.l s.om)
  have hk : HasDerivAt (fun t : ℝ => momentaAction (updateMomenta beta up t s).p (updateMomenta beta up t s).om)
      (∑ x, rsp (s.p x) (zetaForce beta up s.z s.l x) + ∑ x, ∑ mu, s.om x mu * lambdaForce beta up s.z s.l x mu) 0 := by
    have k1 : ∀ x, HasDerivAt (fun t : ℝ => rsp (fun n => s.p x n + zetaForce beta up s.z s.l x n * t) (fun n => s.p x n + zetaForce beta up s.z s.l x n * t)) (2 * rsp (s.p x) (zetaForce beta up s.z s.l x)) 0 := fun x => by
      generalize zetaForce beta up s.z s.l x = f
      unfold rsp
      rw [Finset.mul_sum]
      refine HasDerivAt.fun_sum fun n _ => ?_
      have a : ∀ b c : ℝ, HasDerivAt (fun t : ℝ => (b + c * t) * (b + c * t)) (2 * (b * c)) 0 := fun b c => by
        have h := ((hasDerivAt_id (0 : ℝ)).const_mul c).const_add b
        refine (h.mul h).congr_deriv ?_
        simp; ring
      refine ((a (s.p x n).re (f n).re).add (a (s.p x n).im (f n).im)).congr_deriv (by ring) |>.congr_of_eventuallyEq ?_
      exact Filter.Eventually.of_forall fun t => by simp
    have k2 : ∀ x mu, HasDerivAt (fun t : ℝ => (s.om x mu + lambdaForce beta up s.z s.l x mu * t) ^ 2) (2 * (s.om x mu * lambdaForce beta up s.z s.l x mu)) 0 := fun x mu => by
      have h := ((hasDerivAt_id (0 : ℝ)).const_mul (lambdaForce beta up s.z s.l x mu)).const_add (s.om x mu)
      refine (h.pow 2).congr_deriv ?_
      simp; ring
    have k3 := ((HasDerivAt.fun_sum (u := Finset.univ) fun x _ => k1 x).div_const 2).add
      ((HasDerivAt.fun_sum (u := Finset.univ) fun x _ => HasDerivAt.fun_sum (u := Finset.univ) fun mu _ => k2 x mu).div_const 2)
    refine k3.congr_deriv ?_
    simp only [← Finset.mul_sum]; ring
  refine (d.add hk).congr_deriv ?_
  simp only [hz0, hl0] at uz ul ⊢
  have z0 : ∀ x mu, s.l x mu * Complex.exp ((0 * s.om x mu : ℝ) * Complex.I) = s.l x mu := fun x mu => by simp
  simp only [z0] at ul
  have sp : (∑ x, ∑ mu, ∑ n, ((conj (s.p (up mu x) n) * s.z x n + conj (s.z (up mu x) n) * s.p x n) * s.l x mu + conj (s.z (up mu x) n) * s.z x n * (s.l x mu * (s.om x mu * Complex.I))).re) =
      (∑ x, ∑ mu, ∑ n, ((conj (s.p (up mu x) n) * s.z x n + conj (s.z (up mu x) n) * s.p x n) * s.l x mu + conj (s.z (up mu x) n) * s.z x n * 0).re) +
      ∑ x, ∑ mu, ∑ n, ((conj ((0 : ℂ)) * s.z x n + conj (s.z (up mu x) n) * 0) * s.l x mu + conj (s.z (up mu x) n) * s.z x n * (s.l x mu * (s.om x mu * Complex.I))).re := by
    simp only [← Finset.sum_add_distrib]
    refine Finset.sum_congr rfl fun x _ => Finset.sum_congr rfl fun mu _ => Finset.sum_congr rfl fun n _ => ?_
    rw [← Complex.add_re]; congr 1; simp
  rw [sp, mul_add, neg_add, add_div]
  erw [uz, ul]; ring

end Nissa.Cpn
