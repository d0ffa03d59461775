import Verif.Ib.PropsVertex1

/-! # C67: derivatives with respect to the charge -/

set_option linter.all false

namespace Nissa.Vertex
open Nissa.Lx Nissa.Sten Nissa.Su3f Nissa.Gauge Nissa.Gamma Nissa.StD Nissa.Wilson Nissa.Contr Nissa.EoP Matrix Complex
open Nissa.Clv (As2t)

noncomputable section

/-- the phase put on a link -/
def phase (A : S1) (mu : Dir) (q : ℝ) : ℂ := Complex.exp (-(I * (eCharge * (A mu).re / 3 : ℝ)) * q)

/-- C67: the unit of charge is positive, and its square over 4 pi is the fine structure constant used by the code -/
theorem C67_unit_charge : 0 < eCharge ∧ eCharge ^ 2 / (4 * Real.pi) = 1 / 137.04 := by
  have hp := Real.pi_pos
  unfold eCharge
  refine ⟨Real.sqrt_pos.2 (by positivity), ?_⟩
  rw [Real.sq_sqrt (by positivity)]
  field_simp

theorem phase_eq (A : S1) (mu : Dir) (q : ℝ) : (⟨Real.cos (-eCharge * (A mu).re * q / 3), Real.sin (-eCharge * (A mu).re * q / 3)⟩ : ℂ) = phase A mu q := by
  unfold phase
  rw [show (-(I * ((eCharge * (A mu).re / 3 : ℝ) : ℂ)) * (q : ℂ)) = ((-eCharge * (A mu).re * q / 3 : ℝ) : ℂ) * I by push_cast; ring]
  apply Complex.ext
  · rw [Complex.exp_ofReal_mul_I_re]
  · rw [Complex.exp_ofReal_mul_I_im]

theorem phase_deriv (A : S1) (mu : Dir) (q : ℝ) : HasDerivAt (phase A mu) (-(I * (eCharge * (A mu).re / 3 : ℝ)) * phase A mu q) q := by
  unfold phase
  have h1 : HasDerivAt (fun q : ℝ => -(I * ((eCharge * (A mu).re / 3 : ℝ) : ℂ)) * (q : ℂ)) (-(I * ((eCharge * (A mu).re / 3 : ℝ) : ℂ)) * 1) q :=
    (Complex.ofRealCLM.hasDerivAt (x := q)).const_mul _
  have h2 := h1.cexp
  exact h2.congr_deriv (by ring)

theorem phase_star (A : S1) (mu : Dir) (q : ℝ) : star (phase A mu q) = phase A mu (-q) := by
  unfold phase
  rw [Complex.star_def, ← Complex.exp_conj]
  congr 1
  rw [map_mul, map_neg, map_mul, Complex.conj_I, Complex.conj_ofReal, Complex.conj_ofReal]
  push_cast; ring

theorem add_photon_glob (g : Geo) (A : Nat → Nat → S1) (q : ℝ) (conf : Nat → Nat → Quad) (c : Coords) (mu : Dir) :
    glob g (add_photon_field_to_conf A q conf) c mu = phase (glob g A c) mu q • glob g conf c mu := by
  show (⟨_, _⟩ : ℂ) • _ = _
  rw [← phase_eq]
  rfl

/-- a matrix on the spin after one on the colour, as a continuous linear map -/
def opL (M : Matrix (Fin 4) (Fin 4) ℂ) (U : M3) : SpCol →L[ℝ] SpCol :=
  LinearMap.toContinuousLinearMap
    { toFun := fun v => spinMul M (colMul U v)
      map_add' := fun v w => by
        rw [show colMul U (v + w) = colMul U v + colMul U w by funext i; simp [colMul, Matrix.mulVec_add], spinMul_add]
      map_smul' := fun a v => by
        funext i j
        simp [spinMul, colMul, Matrix.mulVec, dotProduct, Finset.mul_sum, mul_left_comm] }

theorem opL_apply (M : Matrix (Fin 4) (Fin 4) ℂ) (U : M3) (v : SpCol) : opL M U v = spinMul M (colMul U v) := rfl

theorem opL_smul (M : Matrix (Fin 4) (Fin 4) ℂ) (U : M3) (z : ℂ) (v : SpCol) : spinMul M (colMul (z • U) v) = z • opL M U v := by
  rw [opL_apply, ← spinMul_smul]
  congr 1
  funext i
  simp [colMul, Matrix.smul_mulVec]

theorem opL_csmul (M : Matrix (Fin 4) (Fin 4) ℂ) (U : M3) (z : ℂ) (v : SpCol) : opL M U (z • v) = z • opL M U v := by
  rw [opL_apply, opL_apply, ← spinMul_smul]
  congr 1
  funext i
  simp [colMul, Matrix.mulVec_smul]

theorem opL_one (M : Matrix (Fin 4) (Fin 4) ℂ) (v : SpCol) : opL M 1 v = spinMul M v := by
  rw [opL_apply]; congr 1; funext i; simp [colMul]

theorem fw_phase (g : Geo) (A : Nat → Nat → S1) (q : ℝ) (conf : Nat → Nat → Quad) (G : Matrix (Fin 4) (Fin 4) ℂ) (mu : Dir) (x : Coords → SpCol) (c : Coords) :
    fwHop g (glob g (add_photon_field_to_conf A q conf)) G mu x c = phase (glob g A c) mu q • opL (G - γdir mu) (glob g conf c mu) (x (tshift g c mu 1)) := by
  unfold fwHop; rw [add_photon_glob, opL_smul]

theorem bw_phase (g : Geo) (A : Nat → Nat → S1) (q : ℝ) (conf : Nat → Nat → Quad) (G : Matrix (Fin 4) (Fin 4) ℂ) (mu : Dir) (x : Coords → SpCol) (c : Coords) :
    bwHop g (glob g (add_photon_field_to_conf A q conf)) G mu x c =
      phase (glob g A (tshift g c mu (-1))) mu (-q) • opL (G + γdir mu) (glob g conf (tshift g c mu (-1)) mu)ᴴ (x (tshift g c mu (-1))) := by
  unfold bwHop; rw [add_photon_glob, conjTranspose_smul, phase_star, opL_smul]

theorem fw_deriv (g : Geo) (A : Nat → Nat → S1) (conf : Nat → Nat → Quad) (G : Matrix (Fin 4) (Fin 4) ℂ) (mu : Dir) (x : ℝ → Coords → SpCol) (x' : Coords → SpCol) (q : ℝ)
    (hx : ∀ c, HasDerivAt (fun q => x q c) (x' c) q) (c : Coords) :
    HasDerivAt (fun q => fwHop g (glob g (add_photon_field_to_conf A q conf)) G mu (x q) c)
      (fwHop g (glob g (add_photon_field_to_conf A q conf)) G mu x' c +
        (-(I * (eCharge * (glob g A c mu).re / 3 : ℝ))) • fwHop g (glob g (add_photon_field_to_conf A q conf)) G mu (x q) c) q := by
  simp only [fw_phase]
  have h1 := (opL (G - γdir mu) (glob g conf c mu)).hasFDerivAt.comp_hasDerivAt q (hx (tshift g c mu 1))
  have h2 := (phase_deriv (glob g A c) mu q).smul h1
  rw [smul_smul]
  exact h2

theorem bw_deriv (g : Geo) (A : Nat → Nat → S1) (conf : Nat → Nat → Quad) (G : Matrix (Fin 4) (Fin 4) ℂ) (mu : Dir) (x : ℝ → Coords → SpCol) (x' : Coords → SpCol) (q : ℝ)
    (hx : ∀ c, HasDerivAt (fun q => x q c) (x' c) q) (c : Coords) :
    HasDerivAt (fun q => bwHop g (glob g (add_photon_field_to_conf A q conf)) G mu (x q) c)
      (bwHop g (glob g (add_photon_field_to_conf A q conf)) G mu x' c +
        (I * (eCharge * (glob g A (tshift g c mu (-1)) mu).re / 3 : ℝ)) • bwHop g (glob g (add_photon_field_to_conf A q conf)) G mu (x q) c) q := by
  simp only [bw_phase]
  have h1 := (opL (G + γdir mu) (glob g conf (tshift g c mu (-1)) mu)ᴴ).hasFDerivAt.comp_hasDerivAt q (hx (tshift g c mu (-1)))
  have h0 : HasDerivAt (fun q => phase (glob g A (tshift g c mu (-1))) mu (-q))
      ((I * (eCharge * (glob g A (tshift g c mu (-1)) mu).re / 3 : ℝ)) * phase (glob g A (tshift g c mu (-1))) mu (-q)) q := by
    have := (phase_deriv (glob g A (tshift g c mu (-1))) mu (-q)).scomp q (hasDerivAt_neg q)
    exact this.congr_deriv (by rw [neg_one_smul]; ring)
  have h2 := h0.smul h1
  rw [smul_smul]
  exact h2

/-- derivative of a vertex with real weights that do not depend on the charge: the weights are multiplied by the fields -/
theorem vertex_deriv (g : Geo) (A : Nat → Nat → S1) (conf : Nat → Nat → Quad) (G : Matrix (Fin 4) (Fin 4) ℂ) (a b : Coords → Dir → ℂ) (x : ℝ → Coords → SpCol) (x' : Coords → SpCol) (q : ℝ)
    (hx : ∀ c, HasDerivAt (fun q => x q c) (x' c) q) (c : Coords) :
    HasDerivAt (fun q => vertex g (glob g (add_photon_field_to_conf A q conf)) G a b (x q) c)
      (vertex g (glob g (add_photon_field_to_conf A q conf)) G a b x' c +
        ((eCharge / 3 : ℝ) : ℂ) • vertex g (glob g (add_photon_field_to_conf A q conf)) G (fun c mu => -(I * (glob g A c mu).re) * a c mu) (fun c mu => I * (glob g A c mu).re * b c mu) (x q) c) q := by
  unfold vertex
  have h : ∀ mu ∈ (Finset.univ : Finset Dir), HasDerivAt
      (fun q => a c mu • fwHop g (glob g (add_photon_field_to_conf A q conf)) G mu (x q) c + b (tshift g c mu (-1)) mu • bwHop g (glob g (add_photon_field_to_conf A q conf)) G mu (x q) c)
      (a c mu • (fwHop g (glob g (add_photon_field_to_conf A q conf)) G mu x' c +
        (-(I * (eCharge * (glob g A c mu).re / 3 : ℝ))) • fwHop g (glob g (add_photon_field_to_conf A q conf)) G mu (x q) c) +
       b (tshift g c mu (-1)) mu • (bwHop g (glob g (add_photon_field_to_conf A q conf)) G mu x' c +
        (I * (eCharge * (glob g A (tshift g c mu (-1)) mu).re / 3 : ℝ)) • bwHop g (glob g (add_photon_field_to_conf A q conf)) G mu (x q) c)) q :=
    fun mu _ => ((fw_deriv g A conf G mu x x' q hx c).fun_const_smul (a c mu)).fun_add ((bw_deriv g A conf G mu x x' q hx c).fun_const_smul (b (tshift g c mu (-1)) mu))
  have h2 := HasDerivAt.fun_sum h
  refine HasDerivAt.congr_deriv h2 ?_
  rw [Finset.smul_sum, ← Finset.sum_add_distrib]
  refine Finset.sum_congr rfl fun mu _ => ?_
  simp only [smul_add, smul_smul]
  have e1 : ((eCharge / 3 : ℝ) : ℂ) * (-(I * ((glob g A c mu).re : ℂ)) * a c mu) = a c mu * -(I * ((eCharge * (glob g A c mu).re / 3 : ℝ) : ℂ)) := by push_cast; ring
  have e2 : ((eCharge / 3 : ℝ) : ℂ) * (I * ((glob g A (tshift g c mu (-1)) mu).re : ℂ) * b (tshift g c mu (-1)) mu) =
      b (tshift g c mu (-1)) mu * (I * ((eCharge * (glob g A (tshift g c mu (-1)) mu).re / 3 : ℝ) : ℂ)) := by push_cast; ring
  simp only [e1, e2]
  abel

section
variable {g : Geo} (ok : g.Ok)
include ok

/-- the operator applied by `mult_by_Dop`, without clover -/
theorem dop_vertex (ji : Nat) (jq : Quad) (jv : SpCol) (l0 : As2t) (twisted : Bool) (r : Fin 2) (cSW : ℝ) (conf : Nat → Nat → Quad) (kappa mass : ℝ) (x : Fld) {c : Coords} (hc : c ∈ box g.L) :
    glob g (mult_by_Dop twisted r (dopQ g ji jq jv l0 false cSW conf kappa none mass) x) c =
      opL (((1 / (2 * kappa) : ℝ) : ℂ) • wilsonMat twisted r + ((mass : ℂ) * I) • (Γ 5 * wilsonMat twisted r)) 1 (glob g x c) -
        (1 / 2 : ℂ) • vertex g (glob g conf) (wilsonMat twisted r) (fun _ _ => 1) (fun _ _ => 1) (glob g x) c := by
  rw [dop_eq (g := g) twisted r (glob g conf) (1 / (2 * kappa)) mass (clovTerm g ji jq l0 false cSW conf) (dopQ g ji jq jv l0 false cSW conf kappa none mass)
    (fun x c hc => dopQ_eq ok ji jq jv l0 false cSW conf kappa none mass x hc) x hc, opL_one]
  have : clovTerm g ji jq l0 false cSW conf c (spinMul (rotMat twisted r) (glob g x c)) = 0 := by unfold clovTerm; simp
  rw [this, spinMul_zero, add_zero]
  unfold vertex fwHop bwHop
  simp only [one_smul]

/-- **C67**.  Derivative of the Dirac operator applied to a field that depends on the charge: the operator on the derivative of the field, minus `e/3` times the insertion of the photon on the same
configuration.  Any grid of ranks, configuration, photon field, mass and hopping parameter. -/
theorem C67_derivative (ji : Nat) (jq : Quad) (jv : SpCol) (jc : Coords) (j1 : S1) (l0 : As2t) (twisted : Bool) (r : Fin 2) (cSW : ℝ) (conf : Nat → Nat → Quad) (kappa mass : ℝ) (A : Nat → Nat → S1)
    (hA : ∀ rk ivol mu, (A rk ivol mu).im = 0) (S : ℝ → Fld) (S' : Fld) (q : ℝ) (hS : ∀ rk ivol, HasDerivAt (fun q => S q rk ivol) (S' rk ivol) q) {c : Coords} (hc : c ∈ box g.L) :
    let conf' := fun q => add_photon_field_to_conf A q conf
    let D := fun q x => glob g (mult_by_Dop twisted r (dopQ g ji jq jv l0 false cSW (conf' q) kappa none mass) x) c
    HasDerivAt (fun q => D q (S q)) (D q S' - ((eCharge / 3 : ℝ) : ℂ) • glob g (insert_external_source g ji jq jv jc j1 twisted r (conf' q) A (S q) (fun _ => true) (-1)) c) q := by
  simp only
  simp only [dop_vertex ok _ _ _ _ _ _ _ _ _ _ _ hc, C67_photon ok _ _ _ _ _ _ _ _ _ _ _ _ hc]
  have hg : ∀ d, HasDerivAt (fun q => glob g (S q) d) (glob g S' d) q := fun d => hS _ _
  have h1 := (opL (((1 / (2 * kappa) : ℝ) : ℂ) • wilsonMat twisted r + ((mass : ℂ) * I) • (Γ 5 * wilsonMat twisted r)) 1).hasFDerivAt.comp_hasDerivAt q (hg c)
  have h2 := (vertex_deriv g A conf (wilsonMat twisted r) (fun _ _ => 1) (fun _ _ => 1) (fun q => glob g (S q)) (glob g S') q hg c).const_smul (1 / 2 : ℂ)
  have h3 := h1.sub h2
  refine HasDerivAt.congr_deriv h3 ?_
  unfold atTime
  rw [if_pos (Or.inl rfl), smul_add, smul_smul, sub_add_eq_sub_sub]
  congr 1
  unfold vertex
  rw [Finset.smul_sum, Finset.smul_sum]
  refine Finset.sum_congr rfl fun mu _ => ?_
  have hr : ∀ d, ((glob g A d mu).re : ℂ) = glob g A d mu := fun d => Complex.ext (by simp) (by rw [Complex.ofReal_im]; exact (hA _ _ mu).symm)
  simp only [hr, smul_add, smul_smul, mul_one, if_true]
  congr 2 <;> ring

/-- **C67**.  Perturbative expansion: if at every charge `S q` is the propagator from the same source, and it is differentiable, its derivative solves the equation of the Dirac operator with source the
photon inserted on the propagator: `S' = e/3 D^{-1} insert(S)`.  So the chains of inversion, insertion of the photon and inversion that the program computes are the first order of its expansion. -/
theorem C67_propagator (ji : Nat) (jq : Quad) (jv : SpCol) (jc : Coords) (j1 : S1) (l0 : As2t) (twisted : Bool) (r : Fin 2) (cSW : ℝ) (conf : Nat → Nat → Quad) (kappa mass : ℝ) (A : Nat → Nat → S1)
    (hA : ∀ rk ivol mu, (A rk ivol mu).im = 0) (eta : Coords → SpCol) (S : ℝ → Fld) (S' : Fld) (q : ℝ) (hS : ∀ rk ivol, HasDerivAt (fun q => S q rk ivol) (S' rk ivol) q)
    (hsol : ∀ q, ∀ c ∈ box g.L, glob g (mult_by_Dop twisted r (dopQ g ji jq jv l0 false cSW (add_photon_field_to_conf A q conf) kappa none mass) (S q)) c = eta c) {c : Coords} (hc : c ∈ box g.L) :
    glob g (mult_by_Dop twisted r (dopQ g ji jq jv l0 false cSW (add_photon_field_to_conf A q conf) kappa none mass) S') c =
      ((eCharge / 3 : ℝ) : ℂ) • glob g (insert_external_source g ji jq jv jc j1 twisted r (add_photon_field_to_conf A q conf) A (S q) (fun _ => true) (-1)) c := by
  have h := C67_derivative ok ji jq jv jc j1 l0 twisted r cSW conf kappa mass A hA S S' q hS hc
  simp only at h
  have h0 : (fun q => glob g (mult_by_Dop twisted r (dopQ g ji jq jv l0 false cSW (add_photon_field_to_conf A q conf) kappa none mass) (S q)) c) = fun _ => eta c := funext fun q => hsol q c hc
  rw [h0] at h
  have := h.unique (hasDerivAt_const q (eta c))
  exact sub_eq_zero.mp this

/-- **C67**.  The second derivative: the derivative of the insertion of the photon on a field that does not depend on the charge is `2e/3` times the insertion of the tadpole, if the square of the
photon field has the value of the tadpole on every link. -/
theorem C67_second (ji : Nat) (jq : Quad) (jv : SpCol) (jc : Coords) (j1 : S1) (twisted : Bool) (r : Fin 2) (conf : Nat → Nat → Quad) (A : Nat → Nat → S1) (tad : Dir → ℝ)
    (hA : ∀ rk ivol mu, (A rk ivol mu).im = 0) (ht : ∀ rk ivol mu, (A rk ivol mu).re ^ 2 = tad mu) (x : Fld) (t : Int) (q : ℝ) {c : Coords} (hc : c ∈ box g.L) :
    HasDerivAt (fun q => glob g (insert_external_source g ji jq jv jc j1 twisted r (add_photon_field_to_conf A q conf) A x (fun _ => true) t) c)
      (((2 * eCharge / 3 : ℝ) : ℂ) • glob g (insert_tadpole g ji jq jv jc twisted r (add_photon_field_to_conf A q conf) x tad t) c) q := by
  simp only [C67_photon ok _ _ _ _ _ _ _ _ _ _ _ _ hc, C67_tadpole ok _ _ _ _ _ _ _ _ _ _ hc]
  unfold atTime
  by_cases h : t = -1 ∨ ((c 0 : Nat) : Int) = t
  · simp only [if_pos h]
    have h1 := vertex_deriv g A conf (wilsonMat twisted r) (fun c mu => if true then -(I / 2) * glob g A c mu else 0) (fun c mu => if true then I / 2 * glob g A c mu else 0) (fun _ => glob g x)
      (fun _ => 0) q (fun d => hasDerivAt_const q _) c
    refine HasDerivAt.congr_deriv h1 ?_
    have hz : vertex g (glob g (add_photon_field_to_conf A q conf)) (wilsonMat twisted r) (fun c mu => if true then -(I / 2) * glob g A c mu else 0) (fun c mu => if true then I / 2 * glob g A c mu else 0)
        (fun _ => 0) c = 0 := by
      unfold vertex fwHop bwHop
      have : ∀ U : M3, colMul U 0 = 0 := fun U => by funext i; simp [colMul]
      simp [this, spinMul_zero]
    rw [hz, zero_add]
    unfold vertex
    rw [Finset.smul_sum, Finset.smul_sum]
    refine Finset.sum_congr rfl fun mu _ => ?_
    have hr : ∀ d, ((glob g A d mu).re : ℂ) = glob g A d mu := fun d => Complex.ext (by simp) (by rw [Complex.ofReal_im]; exact (hA _ _ mu).symm)
    have hs : ∀ d, glob g A d mu * glob g A d mu = (tad mu : ℂ) := fun d => by
      rw [← hr d, ← Complex.ofReal_mul, ← pow_two]; exact congrArg _ (ht _ _ mu)
    simp only [hr, smul_add, smul_smul, if_true]
    congr 2
    · rw [show -(I * glob g A c mu) * (-(I / 2) * glob g A c mu) = I * I * (glob g A c mu * glob g A c mu) / 2 by ring, hs, I_mul_I]; push_cast; ring
    · rw [show I * glob g A (tshift g c mu (-1)) mu * (I / 2 * glob g A (tshift g c mu (-1)) mu) = I * I * (glob g A (tshift g c mu (-1)) mu * glob g A (tshift g c mu (-1)) mu) / 2 by ring, hs, I_mul_I]
      push_cast; ring
  · simp only [if_neg h, smul_zero]
    exact hasDerivAt_const q _

end

end

end Nissa.Vertex
