import Verif.FreeTheory.PropsQuark3
import Verif.Operations.GaugeConf

/-! # C54: the propagator in momentum space inverts the operator of position space on plane waves; cases meeting the hypotheses -/

set_option linter.all false

namespace Nissa.Free
open Nissa.Lx Nissa.Sten Nissa.Gauge Nissa.Gamma Nissa.Wilson Nissa.StD Nissa.GConf Nissa.Back Nissa.Su3f Matrix Complex

/-- plane wave of integer momentum `n` on the periodic lattice -/
noncomputable def planeWave (g : Geo) (n c : Coords) : ℂ := ∏ mu, Complex.exp (2 * Real.pi * I * ((n mu : ℂ) * (c mu : ℂ) / (g.L mu : ℂ)))

theorem wave_shift {g : Geo} (ok : g.Ok) (n c : Coords) (mu : Dir) (d : Int) :
    planeWave g n (tshift g c mu d) = Complex.exp (2 * Real.pi * I * ((n mu : ℂ) * (d : ℂ) / (g.L mu : ℂ))) * planeWave g n c := by
  have hL : (g.L mu : ℂ) ≠ 0 := by
    have := L_two ok mu
    exact_mod_cast (by omega : g.L mu ≠ 0)
  have hLi : (g.L mu : Int) ≠ 0 := by have := L_two ok mu; omega
  unfold planeWave
  rw [← Finset.mul_prod_erase _ _ (Finset.mem_univ mu), ← Finset.mul_prod_erase (a := mu) Finset.univ (fun mu => Complex.exp (2 * Real.pi * I * ((n mu : ℂ) * (c mu : ℂ) / (g.L mu : ℂ)))) (Finset.mem_univ mu), ← mul_assoc]
  congr 1
  · have hq := Int.mul_ediv_add_emod ((c mu : Int) + d) (g.L mu)
    have hr := Int.emod_nonneg ((c mu : Int) + d) hLi
    have e : (((tshift g c mu d mu : Nat) : Int)) = ((c mu : Int) + d) - g.L mu * (((c mu : Int) + d) / g.L mu) := by
      unfold tshift
      rw [Function.update_self, Int.toNat_of_nonneg hr]; omega
    have e' : ((tshift g c mu d mu : Nat) : ℂ) = (c mu : ℂ) + d - g.L mu * ((((c mu : Int) + d) / g.L mu : Int) : ℂ) := by
      have := congrArg (Int.cast : Int → ℂ) e
      simpa using this
    rw [e', ← Complex.exp_add, Complex.exp_eq_exp_iff_exists_int]
    refine ⟨-((n mu : Int) * (((c mu : Int) + d) / g.L mu)), ?_⟩
    push_cast
    field_simp
    ring
  · refine Finset.prod_congr rfl fun nu h => ?_
    rw [tshift_other g c (Finset.ne_of_mem_erase h)]

theorem cis_exp (a : ℝ) : cis a = Complex.exp (a * I) := by
  rw [Complex.exp_mul_I]
  apply Complex.ext <;> simp [cis, ← Complex.ofReal_cos, ← Complex.ofReal_sin]

theorem spinMul_add_mat (M N : M4) (v : SpCol) : spinMul (M + N) v = spinMul M v + spinMul N v := by
  funext i
  simp [spinMul, add_smul, Finset.sum_add_distrib]

theorem spinMul_sum_mat {ι : Type} (s : Finset ι) (f : ι → M4) (v : SpCol) : spinMul (∑ k ∈ s, f k) v = ∑ k ∈ s, spinMul (f k) v := by
  classical
  induction s using Finset.induction with
  | empty => funext i; simp [spinMul]
  | insert a s h ih => rw [Finset.sum_insert h, Finset.sum_insert h, spinMul_add_mat, ih]

/-- C54: on the unit configuration with the boundary conditions put, the twisted-mass operator of position space sends a plane wave of integer momentum
`n` to the same plane wave, the spinor being multiplied by `gamma5 D(p)`, with `p` the momentum used by the free theory. -/
theorem C54_plane_wave {g : Geo} (ok : g.Ok) (qu : Quark) (n : Coords) (v : SpCol) (pb pe : Bool) (ji : Nat) (jq : Quad) (jv : SpCol)
    (conf : Nat → Nat → Quad) (hconf : ∀ c ∈ box g.L, ∀ mu, glob g conf c mu = 1)
    (inp : Nat → Nat → SpCol) (hinp : ∀ c ∈ box g.L, glob g inp c = planeWave g n c • v) {c : Coords} (hc : c ∈ box g.L) :
    glob g (apply_tmQ g ji jq jv (put_boundaries_conditions g conf qu.bc pb pe) qu.kappa none (rSign qu.r * qu.mass) inp) c =
      planeWave g n c • spinMul (Γ 5 * quarkD qu .wilson (fun mu => (lattMom (n mu) (qu.bc mu) (g.L mu) : ℂ))) v := by
  rw [C40_tmQ ok ji jq jv _ _ _ _ _ hc]
  have hh : ∀ mu, spinMul (1 - γdir mu) (colMul (glob g (put_boundaries_conditions g conf qu.bc pb pe) c mu) (glob g inp (tshift g c mu 1))) +
      spinMul (1 + γdir mu) (colMul (glob g (put_boundaries_conditions g conf qu.bc pb pe) (tshift g c mu (-1)) mu)ᴴ (glob g inp (tshift g c mu (-1)))) =
      planeWave g n c • spinMul ((2 * Complex.cos (lattMom (n mu) (qu.bc mu) (g.L mu))) • 1 - (2 * I * Complex.sin (lattMom (n mu) (qu.bc mu) (g.L mu))) • γdir mu) v := by
    intro mu
    have hm := tshift_mem_box ok hc mu (-1)
    have hp := tshift_mem_box ok hc mu 1
    have hL : (g.L mu : ℂ) ≠ 0 := by
      have := L_two ok mu
      exact_mod_cast (by omega : g.L mu ≠ 0)
    have hcol : ∀ (a : ℂ) (w : SpCol), colMul (a • (1 : M3)) w = a • w := fun a w => by
      funext i; simp [colMul, Matrix.smul_mulVec]
    rw [C47_put ok conf qu.bc pb pe c hc, C47_put ok conf qu.bc pb pe _ hm, hconf c hc, hconf _ hm, hinp _ hm, hinp _ hp, wave_shift ok, wave_shift ok]
    rw [Matrix.conjTranspose_smul, Matrix.conjTranspose_one, hcol, hcol, smul_smul, smul_smul, spinMul_smul, spinMul_smul]
    have e1 : cis (Real.pi * qu.bc mu / g.L mu) * (Complex.exp (2 * Real.pi * I * ((n mu : ℂ) * ((1 : Int) : ℂ) / (g.L mu : ℂ))) * planeWave g n c) =
        planeWave g n c * Complex.exp ((lattMom (n mu) (qu.bc mu) (g.L mu) : ℂ) * I) := by
      rw [cis_exp, ← mul_assoc, ← Complex.exp_add, mul_comm]
      congr 2
      unfold lattMom
      push_cast
      field_simp
      ring
    have e2 : star (cis (Real.pi * qu.bc mu / g.L mu)) * (Complex.exp (2 * Real.pi * I * ((n mu : ℂ) * ((-1 : Int) : ℂ) / (g.L mu : ℂ))) * planeWave g n c) =
        planeWave g n c * Complex.exp (-(lattMom (n mu) (qu.bc mu) (g.L mu) : ℂ) * I) := by
      rw [cis_exp, Complex.star_def, ← Complex.exp_conj, map_mul, conj_ofReal, conj_I, ← mul_assoc, ← Complex.exp_add, mul_comm]
      congr 2
      unfold lattMom
      push_cast
      field_simp
      ring
    rw [e1, e2, Complex.exp_mul_I, Complex.exp_mul_I, Complex.cos_neg, Complex.sin_neg, mul_smul, mul_smul, ← smul_add, ← spinMul_smul_mat, ← spinMul_smul_mat, ← spinMul_add_mat]
    congr 2
    module
  unfold Qspec wilson
  simp only [weight, Option.getD_none, ite_self, Complex.ofReal_one, one_smul, hh]
  rw [hinp c hc, ← Finset.smul_sum, ← spinMul_sum_mat, add_zero, smul_comm (_ : ℂ) (planeWave g n c) v, smul_comm (_ : ℂ) (planeWave g n c), ← smul_sub, spinMul_smul, smul_comm (_ : ℂ) (planeWave g n c) v, ← smul_add]
  congr 1
  rw [← spinMul_mul]
  have e5 : ∀ a : ℂ, a • v = spinMul (Γ 5) (spinMul (a • Γ 5) v) := fun a => by
    rw [spinMul_mul, Matrix.mul_smul, g5sq, spinMul_smul_mat, spinMul_one]
  rw [e5 (_ * I), ← spinMul_add]
  congr 1
  have e1 : ∀ a : ℂ, a • v = spinMul (a • (1 : M4)) v := fun a => by rw [spinMul_smul_mat, spinMul_one]
  rw [e1, ← spinMul_smul_mat, sub_eq_add_neg, ← neg_one_smul ℂ, ← spinMul_smul_mat, ← spinMul_add_mat, ← spinMul_add_mat]
  congr 1
  unfold quarkD wilsonD
  simp only
  rw [Fin.sum_univ_four, Fin.sum_univ_four]
  push_cast
  module

/-- C54: the propagator in momentum space of the Wilson basis is the inverse of the operator of position space: a plane wave with spinor
`glbVol*S(p)*gamma5*w` is sent to the plane wave with spinor `w`. -/
theorem C54_free_inverse {g : Geo} (ok : g.Ok) (qu : Quark) (n : Coords) (w : SpCol) (pb pe : Bool) (ji : Nat) (jq : Quad) (jv : SpCol)
    (hz : ¬IsZeroMode qu n) (hi : IsUnit (quarkD qu .wilson (fun mu => (lattMom (n mu) (qu.bc mu) (g.L mu) : ℂ))))
    (conf : Nat → Nat → Quad) (hconf : ∀ c ∈ box g.L, ∀ mu, glob g conf c mu = 1) (inp : Nat → Nat → SpCol)
    (hinp : ∀ c ∈ box g.L, glob g inp c = planeWave g n c • spinMul ((g.glbVol : ℂ) • (twisted_propagator g qu n .wilson * Γ 5)) w) {c : Coords} (hc : c ∈ box g.L) :
    glob g (apply_tmQ g ji jq jv (put_boundaries_conditions g conf qu.bc pb pe) qu.kappa none (rSign qu.r * qu.mass) inp) c = planeWave g n c • w := by
  have hV : (g.glbVol : ℂ) ≠ 0 := by
    have : g.glbVol ≠ 0 := by
      have h := L_pos ok
      have h0 := h 0; have h1 := h 1; have h2 := h 2; have h3 := h 3
      unfold Geo.glbVol; rw [C01_volOfLx]; positivity
    exact_mod_cast this
  rw [C54_plane_wave ok qu n _ pb pe ji jq jv conf hconf inp hinp hc, spinMul_mul, Matrix.mul_smul, Matrix.mul_assoc,
    ← Matrix.mul_assoc (quarkD _ _ _), (C54_propagator g qu n .wilson hz hi).1, Matrix.smul_mul, Matrix.one_mul, Matrix.mul_smul, g5sq, smul_smul,
    mul_one_div_cancel hV, one_smul, spinMul_one]

/-- the hypotheses of `C54_propagator`, `C54_fields`, `C54_free_inverse` hold for every massive quark and every momentum -/
example (g : Geo) (qu : Quark) (c : Coords) (base : Base) (h : 1e-14 ≤ qu.mass) :
    ¬IsZeroMode qu c ∧ IsUnit (quarkD qu base (fun mu => (lattMom (c mu) (qu.bc mu) (g.L mu) : ℂ))) := by
  have hp : 0 < qu.mass := lt_of_lt_of_le (by norm_num) h
  refine ⟨fun hz => ?_, (C54_poles g.L qu c base).2 fun hz => hp.ne' hz.1⟩
  have := hz.1
  rw [abs_of_pos hp] at this
  linarith

/-- those of `C54_zero_mode`, for the massless quark -/
example : IsZeroMode ⟨1 / 8, 0, fun _ => 0, 1, 1⟩ (fun _ => 0) := by
  refine ⟨by norm_num, by norm_num, fun _ => by norm_num, fun _ => rfl⟩

/-- those of `C54_energy`, `C54_on_shell`, `C54_wavefunctions` hold for every quark of positive mass with `0<kappa<=1/8` and every momentum -/
example (L : Coords) (qu : Quark) (imom : Nat) (h0 : 0 < qu.kappa) (h1 : qu.kappa ≤ 1 / 8) (hm : 0 < qu.mass) :
    -1 < spatialM qu (momI L qu imom) ∧ 0 < qu.mass + Real.sinh (tm_quark_energy L qu imom) := by
  have hA : -1 < spatialM qu (momI L qu imom) := by
    have hk : 4 ≤ 1 / (2 * qu.kappa) := by
      rw [le_div_iff₀ (by linarith)]; linarith
    unfold spatialM
    linarith [Real.cos_le_one (momI L qu imom 1), Real.cos_le_one (momI L qu imom 2), Real.cos_le_one (momI L qu imom 3)]
  have := Real.sinh_nonneg_iff.2 (C54_energy L qu imom .wilson hA).1
  exact ⟨hA, by linarith⟩

/-- those of `C54_naive`, at a momentum `pi/2` -/
example : 0 < spatialS (momI (fun _ => 4) ⟨0, 0, fun _ => 0, 0, 0⟩ 1) := by
  have h : glbCoordOfGlblx (fun _ => 4) 1 3 = 1 := by decide
  have e : momI (fun _ => 4) ⟨0, 0, fun _ => 0, 0, 0⟩ 1 3 = Real.pi / 2 := by
    simp only [momI, lattMom, h]; push_cast; ring
  unfold spatialS
  rw [e, Real.sin_pi_div_two]
  positivity

/-- those of `C54_plane_wave` on any grid of ranks: the unit configuration and any plane wave -/
example {g : Geo} (ok : g.Ok) (n : Coords) (v : SpCol) : ∃ (conf : Nat → Nat → Quad) (inp : Nat → Nat → SpCol),
    (∀ c ∈ box g.L, ∀ mu, glob g conf c mu = 1) ∧ ∀ c ∈ box g.L, glob g inp c = planeWave g n c • v := by
  refine ⟨fun _ _ _ => 1, fun rk i => planeWave g n (momOf g rk i) • v, fun c hc mu => ?_, fun c hc => ?_⟩
  · obtain ⟨rk, i, hrk, hi, hr, hx, hG⟩ := lxSite ok hc
    rw [hG]
  · obtain ⟨rk, i, hrk, hi, hr, hx, hG⟩ := lxSite ok hc
    rw [hG]
    have hm : momOf g rk i = c := by unfold momOf; rw [hx]; rfl
    rw [hm]

end Nissa.Free
