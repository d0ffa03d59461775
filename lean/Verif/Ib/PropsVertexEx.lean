import Verif.Ib.PropsVertex3
import Verif.Spin.PropsGamma2

/-! # C67: cases that meet the hypotheses -/

set_option linter.all false

namespace Nissa.Vertex
open Nissa.Lx Nissa.Sten Nissa.Su3f Nissa.Gauge Nissa.Gamma Nissa.StD Nissa.Wilson Nissa.Contr Nissa.EoP Matrix Complex
open Nissa.Clv (As2t)

noncomputable section

/-- constant photon in the direction of time -/
def exA : Nat → Nat → S1 := fun _ _ mu => if mu = 0 then 1 else 0

/-- the propagator with the constant photon from a constant source, hopping parameter `1/6` -/
def exS (v : SpCol) (q : ℝ) : Fld := fun _ _ => (-(1 / 2 : ℂ)) • (phase (exA 0 0) 0 (-q) • spinMul (1 - γdir 0) v + phase (exA 0 0) 0 q • spinMul (1 + γdir 0) v)

def exS' (v : SpCol) (q : ℝ) : Fld := fun _ _ => (-(1 / 2 : ℂ)) • ((I * (eCharge / 3 : ℝ) * phase (exA 0 0) 0 (-q)) • spinMul (1 - γdir 0) v + (-(I * (eCharge / 3 : ℝ)) * phase (exA 0 0) 0 q) • spinMul (1 + γdir 0) v)

theorem phase_mul (A : S1) (mu : Dir) (q : ℝ) : phase A mu q * phase A mu (-q) = 1 := by
  unfold phase
  rw [← Complex.exp_add, show -(I * ((eCharge * (A mu).re / 3 : ℝ) : ℂ)) * (q : ℂ) + -(I * ((eCharge * (A mu).re / 3 : ℝ) : ℂ)) * ((-q : ℝ) : ℂ) = 0 by push_cast; ring, Complex.exp_zero]

theorem exS_deriv (v : SpCol) (q : ℝ) (rk i : Nat) : HasDerivAt (fun q => exS v q rk i) (exS' v q rk i) q := by
  have h1 := phase_deriv (exA 0 0) 0 q
  have hr : (exA 0 0 0).re = 1 := by simp [exA]
  rw [hr, mul_one] at h1
  have h2 : HasDerivAt (fun q => phase (exA 0 0) 0 (-q)) (I * (eCharge / 3 : ℝ) * phase (exA 0 0) 0 (-q)) q := by
    have h := phase_deriv (exA 0 0) 0 (-q)
    rw [hr, mul_one] at h
    have := h.scomp q (hasDerivAt_neg q)
    exact this.congr_deriv (by rw [neg_one_smul]; ring)
  exact ((h2.smul_const (spinMul (1 - γdir 0) v)).fun_add (h1.smul_const (spinMul (1 + γdir 0) v))).fun_const_smul _

/-- the hypotheses of `C67_propagator` are met by a propagator that changes with the charge, on any lattice -/
theorem ex_propagator {g : Geo} (ok : g.Ok) (ji : Nat) (jq : Quad) (jv : SpCol) (l0 : As2t) (cSW : ℝ) (v : SpCol) (q : ℝ) (c : Coords) (hc : c ∈ box g.L) :
    glob g (mult_by_Dop false 0 (dopQ g ji jq jv l0 false cSW (add_photon_field_to_conf exA q (fun _ _ _ => 1)) (1 / 6) none 0) (exS v q)) c = v := by
  rw [dop_vertex ok _ _ _ _ _ _ _ _ _ _ _ hc, opL_one]
  have hw : wilsonMat false 0 = 1 := by simp [wilsonMat]
  rw [hw]
  have hx : ∀ d, glob g (exS v q) d = exS v q 0 0 := fun _ => rfl
  have hA : ∀ d, glob g exA d = exA 0 0 := fun _ => rfl
  have hone : ∀ (d : Coords) (mu : Dir), glob g (fun _ _ _ => 1 : Nat → Nat → Quad) d mu = (1 : M3) := fun _ _ => rfl
  unfold vertex
  simp only [fw_phase, bw_phase, hx, hA, hone, conjTranspose_one, opL_one, one_smul]
  set S := exS v q 0 0 with hS
  have hp : ∀ mu : Dir, mu ≠ 0 → ∀ p, phase (exA 0 0) mu p = 1 := by
    intro mu h p
    unfold phase exA
    simp [h]
  have h2 : ∀ mu : Dir, mu ≠ 0 → phase (exA 0 0) mu q • spinMul (1 - γdir mu) S + phase (exA 0 0) mu (-q) • spinMul (1 + γdir mu) S = (2 : ℂ) • S := by
    intro mu h
    rw [hp mu h, hp mu h, one_smul, one_smul, spinMul_mat_sub, spinMul_mat_add, spinMul_one, two_smul]; abel
  rw [Fin.sum_univ_four, h2 1 (by decide), h2 2 (by decide), h2 3 (by decide)]
  have hmm : (1 - γdir 0) * (1 - γdir 0) = (2 : ℂ) • (1 - γdir 0) := by simp only [sub_mul, mul_sub, γsq, one_mul, mul_one, two_smul]; abel
  have hpp : (1 + γdir 0) * (1 + γdir 0) = (2 : ℂ) • (1 + γdir 0) := by simp only [add_mul, mul_add, γsq, one_mul, mul_one, two_smul]; abel
  have hmp : (1 - γdir 0) * (1 + γdir 0) = 0 := by simp only [sub_mul, mul_add, γsq, one_mul, mul_one]; abel
  have hpm : (1 + γdir 0) * (1 - γdir 0) = 0 := by simp only [add_mul, mul_sub, γsq, one_mul, mul_one]; abel
  have hms : ∀ (z : ℂ) (M : Matrix (Fin 4) (Fin 4) ℂ), spinMul (z • M) v = z • spinMul M v := fun z M => by funext i; simp [spinMul, Finset.smul_sum, smul_smul]
  have hz : spinMul 0 v = 0 := by funext i; simp [spinMul]
  have e1 : spinMul (1 - γdir 0) S = -(phase (exA 0 0) 0 (-q) • spinMul (1 - γdir 0) v) := by
    rw [hS]; unfold exS
    rw [spinMul_smul, spinMul_add, spinMul_smul, spinMul_smul, spinMul_mul, spinMul_mul, hmm, hmp, hms, hz, smul_zero, add_zero, smul_smul, smul_smul, ← neg_smul]
    congr 1; ring
  have e2 : spinMul (1 + γdir 0) S = -(phase (exA 0 0) 0 q • spinMul (1 + γdir 0) v) := by
    rw [hS]; unfold exS
    rw [spinMul_smul, spinMul_add, spinMul_smul, spinMul_smul, spinMul_mul, spinMul_mul, hpp, hpm, hms, hz, smul_zero, zero_add, smul_smul, smul_smul, ← neg_smul]
    congr 1; ring
  rw [e1, e2, smul_neg, smul_neg, smul_smul, smul_smul, phase_mul, mul_comm (phase (exA 0 0) 0 (-q)), phase_mul, one_smul, one_smul, spinMul_mat_sub 1 (γdir 0) v, spinMul_mat_add 1 (γdir 0) v, spinMul_one]
  have hd : spinMul (((1 / (2 * (1 / 6)) : ℝ) : ℂ) • (1 : Matrix (Fin 4) (Fin 4) ℂ) + (((0 : ℝ) : ℂ) * I) • (Γ 5 * 1)) S = (3 : ℂ) • S := by
    rw [show (((1 / (2 * (1 / 6)) : ℝ) : ℂ) • (1 : Matrix (Fin 4) (Fin 4) ℂ) + (((0 : ℝ) : ℂ) * I) • (Γ 5 * 1)) = (3 : ℂ) • 1 by norm_num]
    funext i
    simp [spinMul, Matrix.smul_apply, Matrix.one_apply]
  rw [hd]
  funext i k
  simp only [Pi.sub_apply, Pi.add_apply, Pi.neg_apply, Pi.smul_apply, smul_eq_mul]
  ring

/-- its derivative is not zero -/
theorem ex_deriv_ne (v : SpCol) (hv : v ≠ 0) : exS' v 0 0 0 ≠ 0 := by
  have he : (eCharge : ℂ) ≠ 0 := by
    have : eCharge ≠ 0 := by unfold eCharge; positivity
    exact_mod_cast this
  have hp : phase (exA 0 0) 0 0 = 1 := by unfold phase; simp
  have h1 : exS' v 0 0 0 = (I * (eCharge : ℂ) / 3) • spinMul (γdir 0) v := by
    unfold exS'
    rw [neg_zero, hp, spinMul_mat_sub, spinMul_mat_add, spinMul_one]
    funext i k
    simp only [Pi.sub_apply, Pi.add_apply, Pi.smul_apply, smul_eq_mul]
    push_cast; ring
  intro h
  rw [h1] at h
  have h2 := (smul_eq_zero.mp h).resolve_left (by simp [he, I_ne_zero])
  apply hv
  have h3 := congrArg (spinMul (γdir 0)) h2
  rwa [spinMul_mul, γsq, spinMul_one, spinMul_zero] at h3

/-- `C67_propagator` on it -/
example (ji : Nat) (jq : Quad) (jv : SpCol) (jc : Coords) (j1 : S1) (l0 : As2t) (v : SpCol) (q : ℝ) (c : Coords) (hc : c ∈ box exGeo.L) :
    glob exGeo (mult_by_Dop false 0 (dopQ exGeo ji jq jv l0 false 0 (add_photon_field_to_conf exA q (fun _ _ _ => 1)) (1 / 6) none 0) (exS' v q)) c =
      ((eCharge / 3 : ℝ) : ℂ) • glob exGeo (insert_external_source exGeo ji jq jv jc j1 false 0 (add_photon_field_to_conf exA q (fun _ _ _ => 1)) exA (exS v q) (fun _ => true) (-1)) c :=
  C67_propagator (show exGeo.Ok by decide) ji jq jv jc j1 l0 false 0 0 (fun _ _ _ => 1) (1 / 6) 0 exA (fun _ _ mu => by unfold exA; split <;> simp) (fun _ => v) (exS v) (exS' v q) q (exS_deriv v q)
    (fun q c hc => ex_propagator (show exGeo.Ok by decide) ji jq jv l0 0 v q c hc) hc

/-- the field of `exA` has square equal to a tadpole in each direction -/
example : ∀ rk ivol mu, (exA rk ivol mu).re ^ 2 = (fun mu : Dir => if mu = 0 then (1 : ℝ) else 0) mu := by
  intro rk ivol mu; unfold exA; split <;> simp_all

/-- the unit configuration is unitary -/
example : ∀ mu, ∀ c ∈ box exGeo.L, (glob exGeo (fun _ _ _ => 1 : Nat → Nat → Quad) c mu)ᴴ * glob exGeo (fun _ _ _ => 1 : Nat → Nat → Quad) c mu = 1 := by
  intro mu c _; show (1 : M3)ᴴ * 1 = 1; simp

end

/-- a configuration kept, asked again after a new photon -/
example : (get_updated_conf (P := Bool) (V := List Nat) (Ch := Nat) (Th := Nat) (A := Nat) (fun th v => (100 + th) :: v) (fun a ch v => (1000 + 10 * a + ch) :: v) 0
    (crun (fun th v => (100 + th) :: v) (fun a ch v => (1000 + 10 * a + ch) :: v) 0 ⟨fun _ => [], 0, [], false, none, 0, 0⟩ [.setup (fun b => if b then [1] else [2]), .newPhoton 3, .get 1 5 true, .newPhoton 4])
    1 5 true).2 = [1041, 105, 1] := by decide

end Nissa.Vertex
