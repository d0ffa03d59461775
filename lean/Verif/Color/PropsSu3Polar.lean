import Verif.Color.PropsSu3Iter
import Verif.Color.PropsSu3Exp
import Mathlib.Analysis.Matrix.PosDef

/-! # C37: the unitarisation by averaging with the inverse always ends, at the polar factor -/

set_option linter.all false

namespace Nissa.Su3f
open Matrix Complex
open scoped ComplexConjugate ComplexOrder

noncomputable section

/-- matrix with singular values `s` -/
def sv (A B : M3) (s : Fin 3 → ℝ) : M3 := A * diagonal (fun i => (s i : ℂ)) * B

theorem norm2_trace (U : M3) : su3_norm2 U = (Matrix.trace (U * Uᴴ)).re := by
  rw [norm2_entries]
  simp only [Matrix.trace, Matrix.diag, Matrix.mul_apply, conjTranspose_apply, Complex.re_sum]
  refine Finset.sum_congr rfl fun i _ => Finset.sum_congr rfl fun j _ => ?_
  simp [Complex.normSq_apply]

theorem norm2_unitary {A B : M3} (hA : A * Aᴴ = 1) (hB : B * Bᴴ = 1) (U : M3) : su3_norm2 (A * U * B) = su3_norm2 U := by
  have hA' : Aᴴ * A = 1 := mul_eq_one_comm.1 hA
  rw [norm2_trace, norm2_trace]
  have e : A * U * B * (A * U * B)ᴴ = A * (U * Uᴴ) * Aᴴ := by
    rw [conjTranspose_mul, conjTranspose_mul]
    calc A * U * B * (Bᴴ * (Uᴴ * Aᴴ)) = A * U * (B * Bᴴ) * (Uᴴ * Aᴴ) := by simp only [Matrix.mul_assoc]
      _ = _ := by rw [hB]; simp only [Matrix.mul_assoc, Matrix.one_mul]
  rw [e, Matrix.trace_mul_comm, ← Matrix.mul_assoc, hA', Matrix.one_mul]

theorem norm2_diag (s : Fin 3 → ℝ) : su3_norm2 (diagonal fun i => (s i : ℂ)) = ∑ i, s i ^ 2 := by
  rw [norm2_entries]
  refine Finset.sum_congr rfl fun i _ => ?_
  rw [Finset.sum_eq_single i]
  · simp [Complex.normSq_apply, sq]
  · intro j _ h; rw [diagonal_apply_ne' _ h]; simp
  · simp

theorem norm2_sv {A B : M3} (hA : A * Aᴴ = 1) (hB : B * Bᴴ = 1) (s : Fin 3 → ℝ) : su3_norm2 (sv A B s) = ∑ i, s i ^ 2 := by
  rw [sv, norm2_unitary hA hB, norm2_diag]

/-- every invertible matrix has singular values -/
theorem sv_exists (X : M3) (hX : X.det ≠ 0) : ∃ (A B : M3) (s : Fin 3 → ℝ), A * Aᴴ = 1 ∧ B * Bᴴ = 1 ∧ (∀ i, 0 < s i) ∧ X = sv A B s := by
  obtain ⟨S, d, h1, h2, h3⟩ := diag_exists (X * Xᴴ) (by rw [conjTranspose_mul, conjTranspose_conjTranspose])
  have hd : (Sᴴ * X) * (Sᴴ * X)ᴴ = diagonal (fun i => (d i : ℂ)) := by
    rw [conjTranspose_mul, conjTranspose_conjTranspose]
    calc Sᴴ * X * (Xᴴ * S) = Sᴴ * (X * Xᴴ) * S := by simp only [Matrix.mul_assoc]
      _ = (Sᴴ * S) * diagonal (fun i => (d i : ℂ)) * (Sᴴ * S) := by rw [h3]; simp only [Matrix.mul_assoc]
      _ = _ := by rw [h2]; simp
  have hdet : (Sᴴ * X).det ≠ 0 := by
    rw [det_mul]
    refine mul_ne_zero ?_ hX
    intro h0
    have := congrArg det h2
    rw [det_mul, h0, zero_mul, det_one] at this
    exact zero_ne_one this
  have hpos : ∀ i, 0 < d i := by
    intro i
    have e := congrFun (congrFun hd i) i
    rw [Matrix.mul_apply, diagonal_apply_eq] at e
    have e2 : d i = color_norm2 ((Sᴴ * X) i) := by
      have := norm2_dot ((Sᴴ * X) i)
      rw [show rowDot ((Sᴴ * X) i) ((Sᴴ * X) i) = _ from e] at this
      exact_mod_cast this.symm
    rw [e2]
    refine norm2_pos _ fun h0 => hdet ?_
    exact det_eq_zero_of_row_eq_zero i fun j => congrFun h0 j
  have hs : ∀ i, 0 < Real.sqrt (d i) := fun i => Real.sqrt_pos.2 (hpos i)
  refine ⟨S, diagonal (fun i => (((Real.sqrt (d i))⁻¹ : ℝ) : ℂ)) * (Sᴴ * X), fun i => Real.sqrt (d i), h1, ?_, hs, ?_⟩
  · rw [conjTranspose_mul]
    calc diagonal (fun i => (((Real.sqrt (d i))⁻¹ : ℝ) : ℂ)) * (Sᴴ * X) * ((Sᴴ * X)ᴴ * (diagonal (fun i => (((Real.sqrt (d i))⁻¹ : ℝ) : ℂ)))ᴴ)
        = diagonal (fun i => (((Real.sqrt (d i))⁻¹ : ℝ) : ℂ)) * ((Sᴴ * X) * (Sᴴ * X)ᴴ) * (diagonal (fun i => (((Real.sqrt (d i))⁻¹ : ℝ) : ℂ)))ᴴ := by
          simp only [Matrix.mul_assoc]
      _ = 1 := by
        rw [hd, diagonal_conjTranspose, diagonal_mul_diagonal, diagonal_mul_diagonal, ← diagonal_one]
        congr 1
        funext i
        have : (Real.sqrt (d i))⁻¹ * d i * (Real.sqrt (d i))⁻¹ = 1 := by
          rw [inv_mul_eq_div, ← div_eq_mul_inv, div_div, Real.mul_self_sqrt (hpos i).le, div_self (hpos i).ne']
        simp only [Pi.star_apply, RCLike.star_def, Complex.conj_ofReal]
        exact_mod_cast this
  · unfold sv
    rw [Matrix.mul_assoc, ← Matrix.mul_assoc (diagonal _) (diagonal _), diagonal_mul_diagonal]
    have : (fun i => ((Real.sqrt (d i) : ℝ) : ℂ) * (((Real.sqrt (d i))⁻¹ : ℝ) : ℂ)) = fun _ => 1 := by
      funext i
      exact_mod_cast mul_inv_cancel₀ (hs i).ne'
    rw [this, diagonal_one, Matrix.one_mul, ← Matrix.mul_assoc, h1, Matrix.one_mul]

theorem inverse_sv {A B : M3} (hA : A * Aᴴ = 1) (hB : B * Bᴴ = 1) (s : Fin 3 → ℝ) (hs : ∀ i, 0 < s i) :
    su3_explicit_inverse (sv A B s) = sv Bᴴ Aᴴ (fun i => (s i)⁻¹) := by
  have hA' : Aᴴ * A = 1 := mul_eq_one_comm.1 hA
  have hB' : Bᴴ * B = 1 := mul_eq_one_comm.1 hB
  have h : sv A B s * sv Bᴴ Aᴴ (fun i => (s i)⁻¹) = 1 := by
    unfold sv
    calc A * diagonal (fun i => (s i : ℂ)) * B * (Bᴴ * diagonal (fun i => (((s i)⁻¹ : ℝ) : ℂ)) * Aᴴ)
        = A * diagonal (fun i => (s i : ℂ)) * (B * Bᴴ) * diagonal (fun i => (((s i)⁻¹ : ℝ) : ℂ)) * Aᴴ := by simp only [Matrix.mul_assoc]
      _ = A * (diagonal (fun i => (s i : ℂ)) * diagonal (fun i => (((s i)⁻¹ : ℝ) : ℂ))) * Aᴴ := by rw [hB]; simp only [Matrix.mul_assoc, Matrix.mul_one, Matrix.one_mul]
      _ = 1 := by
        rw [diagonal_mul_diagonal]
        have : (fun i => ((s i : ℝ) : ℂ) * (((s i)⁻¹ : ℝ) : ℂ)) = fun _ => 1 := by
          funext i
          exact_mod_cast mul_inv_cancel₀ (hs i).ne'
        rw [this, diagonal_one, Matrix.mul_one, hA]
  rw [inverse_adj]
  have hd : (sv A B s).det ≠ 0 := by
    intro h0
    have := congrArg det h
    rw [det_mul, h0, zero_mul, det_one] at this
    exact zero_ne_one this
  have e : (sv A B s)⁻¹ = sv Bᴴ Aᴴ (fun i => (s i)⁻¹) := inv_eq_right_inv h
  rw [← e, Matrix.inv_def, Ring.inverse_eq_inv']

/-- the scale factor, on the singular values -/
def gam (s : Fin 3 → ℝ) : ℝ := Real.sqrt ((∑ i, ((s i)⁻¹) ^ 2) / ∑ i, s i ^ 2)

/-- the step, on the singular values -/
def nxt (s : Fin 3 → ℝ) (i : Fin 3) : ℝ := (gam s * s i + (gam s * s i)⁻¹) / 2

theorem gam_pos (s : Fin 3 → ℝ) (hs : ∀ i, 0 < s i) : 0 < gam s := by
  unfold gam
  have h1 : 0 < ∑ i, ((s i)⁻¹) ^ 2 := Finset.sum_pos (fun i _ => by have := hs i; positivity) ⟨0, Finset.mem_univ _⟩
  have h2 : 0 < ∑ i, s i ^ 2 := Finset.sum_pos (fun i _ => by have := hs i; positivity) ⟨0, Finset.mem_univ _⟩
  exact Real.sqrt_pos.2 (div_pos h1 h2)

theorem sv_sub (A B : M3) (s t : Fin 3 → ℝ) : sv A B s - sv A B t = sv A B (fun i => s i - t i) := by
  unfold sv
  rw [← Matrix.sub_mul, ← Matrix.mul_sub, diagonal_sub]
  congr 3
  funext i; push_cast; rfl

theorem step_sv {A B : M3} (hA : A * Aᴴ = 1) (hB : B * Bᴴ = 1) (s : Fin 3 → ℝ) (hs : ∀ i, 0 < s i) :
    invertingStep (sv A B s) = (sv A B (nxt s), Real.sqrt (∑ i, (nxt s i - s i) ^ 2)) := by
  have hA' : Aᴴ * A = 1 := mul_eq_one_comm.1 hA
  have hB' : Bᴴ * B = 1 := mul_eq_one_comm.1 hB
  have hinv := inverse_sv hA hB s hs
  have hg : Real.sqrt (su3_norm2 (su3_explicit_inverse (sv A B s)) / su3_norm2 (sv A B s)) = gam s := by
    rw [hinv, norm2_sv hA hB, norm2_sv (by rw [conjTranspose_conjTranspose]; exact hB') (by rw [conjTranspose_conjTranspose]; exact hA')]
    rfl
  have hgp := gam_pos s hs
  have h1 : (invertingStep (sv A B s)).1 = sv A B (nxt s) := by
    have e : (sv Bᴴ Aᴴ (fun i => (s i)⁻¹))ᴴ = sv A B (fun i => (s i)⁻¹) := by
      unfold sv
      rw [conjTranspose_mul, conjTranspose_mul, conjTranspose_conjTranspose, conjTranspose_conjTranspose, diagonal_conjTranspose, Matrix.mul_assoc]
      congr 3
      funext i; simp
    have e2 : sv A B (nxt s) = ((gam s / 2 : ℝ) : ℂ) • sv A B s + ((1 / (2 * gam s) : ℝ) : ℂ) • sv A B (fun i => (s i)⁻¹) := by
      unfold sv
      have q : ∀ (c : ℂ) (M : M3), c • (A * M * B) = A * (c • M) * B := fun c M => by rw [Matrix.mul_smul, Matrix.smul_mul]
      rw [q, q, ← Matrix.add_mul, ← Matrix.mul_add, ← diagonal_smul, ← diagonal_smul, diagonal_add]
      congr 3
      funext i
      simp only [Pi.smul_apply, smul_eq_mul, Pi.add_apply]
      rw [← Complex.ofReal_mul, ← Complex.ofReal_mul, ← Complex.ofReal_add]
      congr 1
      unfold nxt
      have := (hs i).ne'
      field_simp
    rw [e2, ← e, ← hinv]
    unfold invertingStep
    dsimp only []
    rw [hg]
    ext i j
    rw [Matrix.of_apply, Matrix.add_apply, Matrix.smul_apply, Matrix.smul_apply, conjTranspose_apply]
    apply Complex.ext
    · simp; ring
    · simp; ring
  have h2 : (invertingStep (sv A B s)).2 = Real.sqrt (su3_norm2 ((invertingStep (sv A B s)).1 - sv A B s)) := rfl
  refine Prod.ext h1 ?_
  rw [h2, h1, sv_sub, norm2_sv hA hB]

/-! ### singular values -/

theorem half_inv_ge {u : ℝ} (hu : 0 < u) : 1 ≤ (u + u⁻¹) / 2 := by
  have : (u + u⁻¹) / 2 - 1 = (u - 1) ^ 2 / (2 * u) := by field_simp; ring
  have h2 : 0 ≤ (u - 1) ^ 2 / (2 * u) := by positivity
  linarith

theorem nxt_ge (s : Fin 3 → ℝ) (hs : ∀ i, 0 < s i) (i : Fin 3) : 1 ≤ nxt s i := half_inv_ge (mul_pos (gam_pos s hs) (hs i))

theorem nxt_norm (s : Fin 3 → ℝ) (hs : ∀ i, 0 < s i) : ∑ i, nxt s i ^ 2 = ((∑ i, s i ^ 2) + (∑ i, ((s i)⁻¹) ^ 2) + 6) / 4 := by
  have hgp := gam_pos s hs
  have h1 : 0 < ∑ i, ((s i)⁻¹) ^ 2 := Finset.sum_pos (fun i _ => by have := hs i; positivity) ⟨0, Finset.mem_univ _⟩
  have h2 : 0 < ∑ i, s i ^ 2 := Finset.sum_pos (fun i _ => by have := hs i; positivity) ⟨0, Finset.mem_univ _⟩
  have hg2 : gam s ^ 2 = (∑ i, ((s i)⁻¹) ^ 2) / ∑ i, s i ^ 2 := Real.sq_sqrt (div_pos h1 h2).le
  have e : ∀ i, nxt s i ^ 2 = (gam s ^ 2 * s i ^ 2 + 2 + (gam s ^ 2)⁻¹ * ((s i)⁻¹) ^ 2) / 4 := by
    intro i
    unfold nxt
    have := (hs i).ne'
    field_simp
    ring
  rw [Finset.sum_congr rfl fun i _ => e i, ← Finset.sum_div, Finset.sum_add_distrib, Finset.sum_add_distrib, ← Finset.mul_sum, ← Finset.mul_sum, hg2]
  rw [inv_div, div_mul_cancel₀ _ h2.ne', div_mul_cancel₀ _ h1.ne']
  simp
  ring

theorem contract (s : Fin 3 → ℝ) (hs : ∀ i, 1 ≤ s i) : (∑ i, nxt s i ^ 2) - 3 ≤ ((∑ i, s i ^ 2) - 3) / 4 := by
  rw [nxt_norm s fun i => lt_of_lt_of_le one_pos (hs i)]
  have : ∑ i, ((s i)⁻¹) ^ 2 ≤ ∑ i : Fin 3, (1 : ℝ) := Finset.sum_le_sum fun i _ => by
    have h1 := inv_le_one_of_one_le₀ (hs i)
    have h2 : 0 ≤ (s i)⁻¹ := inv_nonneg.2 (zero_le_one.trans (hs i))
    nlinarith
  simp at this
  simp only [inv_pow]
  linarith

theorem residue_le (s : Fin 3 → ℝ) (hs : ∀ i, 1 ≤ s i) : ∑ i, (nxt s i - s i) ^ 2 ≤ 5 / 4 * ((∑ i, s i ^ 2) - 3) := by
  have h := contract s hs
  have h1 : ∑ i, (nxt s i - s i) ^ 2 ≤ ∑ i, ((nxt s i ^ 2 - 1) + (s i ^ 2 - 1)) := Finset.sum_le_sum fun i _ => by
    have a := nxt_ge s (fun i => lt_of_lt_of_le one_pos (hs i)) i
    have b := hs i
    nlinarith [mul_nonneg (sub_nonneg.2 a) (sub_nonneg.2 b)]
  rw [Finset.sum_add_distrib, Finset.sum_sub_distrib, Finset.sum_sub_distrib] at h1
  simp at h1
  linarith

/-- started from singular values not less than one, the loop ends within `n+1` turns as soon as `4^n tol^2` exceeds the distance -/
theorem loop_ends_ge (tol : ℝ) (htol : 0 ≤ tol) {A B : M3} (hA : A * Aᴴ = 1) (hB : B * Bᴴ = 1) (n : ℕ) : ∀ (s : Fin 3 → ℝ), (∀ i, 1 ≤ s i) →
    5 / 4 * ((∑ i, s i ^ 2) - 3) ≤ 4 ^ n * tol ^ 2 → (invertingLoop tol (n + 1) (sv A B s)).isSome := by
  induction n with
  | zero =>
    intro s hs h
    have hp : ∀ i, 0 < s i := fun i => lt_of_lt_of_le one_pos (hs i)
    unfold invertingLoop
    dsimp only []
    rw [step_sv hA hB s hp, if_neg]
    · rfl
    · simp only [not_lt]
      refine Real.sqrt_le_iff.2 ⟨htol, (residue_le s hs).trans ?_⟩
      simpa using h
  | succ n ih =>
    intro s hs h
    have hp : ∀ i, 0 < s i := fun i => lt_of_lt_of_le one_pos (hs i)
    unfold invertingLoop
    dsimp only []
    rw [step_sv hA hB s hp]
    split
    · refine ih _ (nxt_ge s hp) ?_
      have := contract s hs
      rw [pow_succ] at h
      linarith
    · rfl

set_option maxHeartbeats 2000000 in
/-- on exit the singular values of the average differ from one by the square of the tolerance -/
theorem exit_close (tol : ℝ) (h0 : 0 ≤ tol) (h1 : tol ≤ 1 / 100) (s : Fin 3 → ℝ) (hs : ∀ i, 0 < s i) (hr : ∑ i, (nxt s i - s i) ^ 2 ≤ tol ^ 2) (i : Fin 3) :
    nxt s i - 1 ≤ 28 * tol ^ 2 := by
  have hd : ∀ i, |nxt s i - s i| ≤ tol := by
    intro i
    have : (nxt s i - s i) ^ 2 ≤ tol ^ 2 := (Finset.single_le_sum (f := fun i => (nxt s i - s i) ^ 2) (fun j _ => sq_nonneg _) (Finset.mem_univ i)).trans hr
    exact abs_le_of_sq_le_sq this h0
  have hge := nxt_ge s hs
  have hlow : ∀ i, 1 - tol ≤ s i := fun i => by have := abs_le.1 (hd i); have := hge i; linarith
  -- inverses
  have hinv : ∀ i, ((s i)⁻¹) ^ 2 ≤ 1 + 2.1 * tol := by
    intro i
    have p : 0 < 1 - tol := by linarith
    have q : (s i)⁻¹ ≤ (1 - tol)⁻¹ := inv_anti₀ p (hlow i)
    have q0 : 0 < (s i)⁻¹ := inv_pos.2 (hs i)
    have r : (1 - tol)⁻¹ ≤ 1 + 1.02 * tol := by
      rw [inv_le_iff_one_le_mul₀ p]; nlinarith
    nlinarith
  have hsum : ∑ i, ((s i)⁻¹) ^ 2 ≤ 3 * (1 + 2.1 * tol) := by
    refine (Finset.sum_le_sum fun i _ => hinv i).trans (by simp; linarith)
  -- first bound
  have hup : ∀ i, s i ≤ nxt s i + tol := fun i => by have := abs_le.1 (hd i); linarith
  have hN := nxt_norm s hs
  have hS : ∑ i, s i ^ 2 ≤ ∑ i, (nxt s i ^ 2 + 2 * tol * nxt s i + tol ^ 2) := Finset.sum_le_sum fun i _ => by
    have := hup i; have := hs i
    have : s i ^ 2 ≤ (nxt s i + tol) ^ 2 := by nlinarith
    nlinarith
  have hlin : ∀ i, nxt s i ≤ 1 + (nxt s i ^ 2 - 1) / 2 := fun i => by nlinarith [sq_nonneg (nxt s i - 1)]
  have hy : ∀ i, 0 ≤ nxt s i ^ 2 - 1 := fun i => by nlinarith [hge i]
  have hdev : (∑ i, nxt s i ^ 2) - 3 ≤ 4.2 * tol := by
    simp only [Fin.sum_univ_three] at hS hN hsum ⊢
    have a0 := hlin 0; have a1 := hlin 1; have a2 := hlin 2
    nlinarith [hy 0, hy 1, hy 2]
  have hy1 : ∀ i, nxt s i ≤ 1 + 2.1 * tol := by
    intro i
    have : nxt s i ^ 2 - 1 ≤ 4.2 * tol := by
      have e : (∑ i, nxt s i ^ 2) - 3 = ∑ i, (nxt s i ^ 2 - 1) := by rw [Finset.sum_sub_distrib]; simp
      rw [e] at hdev
      exact (Finset.single_le_sum (f := fun i => nxt s i ^ 2 - 1) (fun j _ => hy j) (Finset.mem_univ i)).trans hdev
    have := hlin i
    linarith
  have hs1 : ∀ i, s i ≤ 1 + 3.1 * tol := fun i => by have := hup i; have := hy1 i; linarith
  -- the scale
  have hg := gam_pos s hs
  have hsq : gam s ^ 2 = (∑ i, ((s i)⁻¹) ^ 2) / ∑ i, s i ^ 2 :=
    Real.sq_sqrt (div_nonneg (Finset.sum_nonneg fun i _ => sq_nonneg _) (Finset.sum_nonneg fun i _ => sq_nonneg _))
  have hS0 : 3 * (1 - tol) ^ 2 ≤ ∑ i, s i ^ 2 := by
    have : ∑ i : Fin 3, (1 - tol) ^ 2 ≤ ∑ i, s i ^ 2 := Finset.sum_le_sum fun i _ => by have := hlow i; nlinarith
    simpa using this
  have hS1 : ∑ i, s i ^ 2 ≤ 3 * (1 + 3.1 * tol) ^ 2 := by
    have : ∑ i, s i ^ 2 ≤ ∑ i : Fin 3, (1 + 3.1 * tol) ^ 2 := Finset.sum_le_sum fun i _ => by have := hs1 i; have := hs i; nlinarith
    simpa using this
  have hI0 : 3 * (1 - 3.1 * tol) ^ 2 ≤ ∑ i, ((s i)⁻¹) ^ 2 := by
    have : ∑ i : Fin 3, (1 - 3.1 * tol) ^ 2 ≤ ∑ i, ((s i)⁻¹) ^ 2 := Finset.sum_le_sum fun i _ => by
      have a : 1 - 3.1 * tol ≤ (s i)⁻¹ := by
        rw [le_inv_comm₀ (by linarith) (hs i)]
        refine (hs1 i).trans ?_
        rw [le_inv_comm₀ (by linarith) (by linarith)]
        rw [inv_eq_one_div, le_div_iff₀ (by linarith)]
        nlinarith
      have : 0 ≤ 1 - 3.1 * tol := by linarith
      nlinarith
    simpa using this
  have hSp : 0 < ∑ i, s i ^ 2 := lt_of_lt_of_le (by nlinarith) hS0
  have hgu : gam s ≤ 1 + 2.2 * tol := by
    refine abs_le_of_sq_le_sq' ?_ (by linarith) |>.2
    rw [hsq, div_le_iff₀ hSp]
    nlinarith
  have hgl : 1 - 6.2 * tol ≤ gam s := by
    refine (abs_le_of_sq_le_sq' (a := 1 - 6.2 * tol) (b := gam s) ?_ hg.le).2
    rw [hsq, le_div_iff₀ hSp]
    have p : (1 - 6.2 * tol) * (1 + 3.1 * tol) ≤ 1 - 3.1 * tol := by nlinarith
    have p0 : 0 ≤ (1 - 6.2 * tol) * (1 + 3.1 * tol) := mul_nonneg (by linarith) (by linarith)
    calc (1 - 6.2 * tol) ^ 2 * ∑ i, s i ^ 2 ≤ (1 - 6.2 * tol) ^ 2 * (3 * (1 + 3.1 * tol) ^ 2) := mul_le_mul_of_nonneg_left hS1 (sq_nonneg _)
      _ = 3 * ((1 - 6.2 * tol) * (1 + 3.1 * tol)) ^ 2 := by ring
      _ ≤ 3 * (1 - 3.1 * tol) ^ 2 := mul_le_mul_of_nonneg_left (pow_le_pow_left₀ p0 p 2) (by norm_num)
      _ ≤ _ := hI0
  have hu := mul_pos hg (hs i)
  have u1 : 1 - 7.2 * tol ≤ gam s * s i := by
    have := hlow i
    have : (1 - 6.2 * tol) * (1 - tol) ≤ gam s * s i := mul_le_mul hgl this (by linarith) hg.le
    nlinarith
  have u2 : gam s * s i ≤ 1 + 5.4 * tol := by
    have : gam s * s i ≤ (1 + 2.2 * tol) * (1 + 3.1 * tol) := mul_le_mul hgu (hs1 i) (hs i).le (by linarith)
    nlinarith
  have e : nxt s i - 1 = (gam s * s i - 1) ^ 2 / (2 * (gam s * s i)) := by
    unfold nxt
    have h5 := hu.ne'
    generalize gam s * s i = u at h5 ⊢
    field_simp
    ring
  rw [e, div_le_iff₀ (by linarith)]
  have hq : (gam s * s i - 1) ^ 2 ≤ (7.2 * tol) ^ 2 := sq_le_sq' (by linarith) (by linarith)
  nlinarith

theorem loop_result (tol : ℝ) (h0 : 0 ≤ tol) (h1 : tol ≤ 1 / 100) {A B : M3} (hA : A * Aᴴ = 1) (hB : B * Bᴴ = 1) (fuel : ℕ) : ∀ (s : Fin 3 → ℝ) (V : M3), (∀ i, 0 < s i) →
    invertingLoop tol fuel (sv A B s) = some V → ∃ t : Fin 3 → ℝ, (∀ i, 1 ≤ t i ∧ t i ≤ 1 + 28 * tol ^ 2) ∧ V = complex_pow (sv A B t).det (-1.0 / 3) • sv A B t := by
  induction fuel with
  | zero => intro s V _ h; simp [invertingLoop] at h
  | succ fuel ih =>
    intro s V hs h
    unfold invertingLoop at h
    dsimp only [] at h
    rw [step_sv hA hB s hs] at h
    dsimp only [] at h
    split at h
    · exact ih _ _ (fun i => lt_of_lt_of_le one_pos (nxt_ge s hs i)) h
    · rename_i hr
      rw [det_eq] at h
      refine ⟨nxt s, fun i => ⟨nxt_ge s hs i, ?_⟩, (Option.some.inj h).symm⟩
      have := exit_close tol h0 h1 s hs ((Real.sqrt_le_left h0).1 (not_lt.1 hr)) i
      linarith

theorem norm_det_unitary {A : M3} (hA : A * Aᴴ = 1) : ‖A.det‖ = 1 := by
  have := congrArg det hA
  rw [det_mul, det_conjTranspose, det_one] at this
  have h2 := congrArg norm this
  rw [norm_mul, norm_star, norm_one] at h2
  nlinarith [norm_nonneg A.det]

theorem norm2_smul (c : ℂ) (U : M3) : su3_norm2 (c • U) = ‖c‖ ^ 2 * su3_norm2 U := by
  rw [norm2_entries, norm2_entries, Finset.mul_sum]
  refine Finset.sum_congr rfl fun i _ => ?_
  rw [Finset.mul_sum]
  refine Finset.sum_congr rfl fun j _ => ?_
  rw [Matrix.smul_apply, smul_eq_mul, Complex.normSq_mul, Complex.normSq_eq_norm_sq c]

/-- C37: the unitarisation by averaging with the inverse ends on every invertible matrix, within a number of turns which grows only with the logarithm of the
distance and of the tolerance; what comes out has unit determinant and is, within 50 times the square of the tolerance, the SU(3) matrix `c W` made with the unitary
factor `W` of the input (`X = P W` with `P` positive). -/
theorem C37_inverting_converges (tol : ℝ) (h0 : 0 < tol) (h1 : tol ≤ 1 / 100) (X : M3) (hX : X.det ≠ 0) :
    (∀ n : ℕ, 5 / 16 * (su3_norm2 X + su3_norm2 X⁻¹) ≤ 4 ^ n * tol ^ 2 → ∀ fuel ≥ n + 2, (invertingLoop tol fuel X).isSome) ∧
    ∀ (fuel : ℕ) (V : M3), invertingLoop tol fuel X = some V → V.det = 1 ∧
      ∃ (W : M3) (c : ℂ), W * Wᴴ = 1 ∧ (X * Wᴴ).PosDef ∧ ‖c‖ = 1 ∧ IsSU3 (c • W) ∧ Real.sqrt (su3_norm2 (V - c • W)) ≤ 50 * tol ^ 2 := by
  obtain ⟨A, B, s, hA, hB, hs, rfl⟩ := sv_exists X hX
  have hA' : Aᴴ * A = 1 := mul_eq_one_comm.1 hA
  have hB' : Bᴴ * B = 1 := mul_eq_one_comm.1 hB
  constructor
  · intro n hn fuel hf
    have hmono : ∀ (k fuel : ℕ) (X : M3), (invertingLoop tol fuel X).isSome → (invertingLoop tol (fuel + k) X).isSome := by
      intro k fuel
      induction fuel with
      | zero => intro X h; simp [invertingLoop] at h
      | succ fuel ih =>
        intro X h
        rw [show fuel + 1 + k = (fuel + k) + 1 by omega]
        unfold invertingLoop at h ⊢
        dsimp only [] at h ⊢
        split at h
        · rename_i hc; rw [if_pos hc]; exact ih _ h
        · rename_i hc; rw [if_neg hc]; rfl
    obtain ⟨k, rfl⟩ := Nat.exists_eq_add_of_le hf
    refine hmono k _ _ ?_
    have e : (sv A B s)⁻¹ = sv Bᴴ Aᴴ (fun i => (s i)⁻¹) := by
      rw [← inverse_sv hA hB s hs, inverse_adj, Matrix.inv_def, Ring.inverse_eq_inv']
    rw [e, norm2_sv hA hB, norm2_sv (by rw [conjTranspose_conjTranspose]; exact hB') (by rw [conjTranspose_conjTranspose]; exact hA')] at hn
    rw [show n + 2 = (n + 1) + 1 by omega]
    unfold invertingLoop
    dsimp only []
    rw [step_sv hA hB s hs]
    split
    · refine loop_ends_ge tol h0.le hA hB n _ (nxt_ge s hs) ?_
      have := nxt_norm s hs
      linarith
    · rfl
  · intro fuel V hV
    obtain ⟨t, ht, hVt⟩ := loop_result tol h0.le h1 hA hB fuel s V hs hV
    have hdet : (sv A B t).det = A.det * ((∏ i, t i : ℝ) : ℂ) * B.det := by
      unfold sv
      rw [det_mul, det_mul, det_diagonal]
      push_cast; rfl
    have hprod1 : 1 ≤ ∏ i, t i := by
      rw [Fin.prod_univ_three]
      have := (ht 0).1; have := (ht 1).1; have := (ht 2).1
      nlinarith [mul_nonneg (sub_nonneg.2 (ht 0).1) (sub_nonneg.2 (ht 1).1), mul_le_mul (ht 0).1 (ht 1).1 zero_le_one (by linarith), mul_pos (lt_of_lt_of_le one_pos (ht 0).1) (lt_of_lt_of_le one_pos (ht 1).1)]
    have hne : (sv A B t).det ≠ 0 := by
      rw [hdet]
      refine mul_ne_zero (mul_ne_zero ?_ ?_) ?_
      · intro h; have := norm_det_unitary hA; rw [h] at this; simp at this
      · exact_mod_cast (lt_of_lt_of_le one_pos hprod1).ne'
      · intro h; have := norm_det_unitary hB; rw [h] at this; simp at this
    set f := complex_pow (sv A B t).det (-1.0 / 3) with hf
    have h3 : f ^ 3 * (sv A B t).det = 1 := pow_third _ hne
    have hfn : ‖f‖ ^ 3 * ∏ i, t i = 1 := by
      have := congrArg norm h3
      rw [hdet, norm_mul, norm_mul, norm_mul, norm_pow, norm_det_unitary hA, norm_det_unitary hB, norm_one, Complex.norm_real, Real.norm_of_nonneg (by linarith)] at this
      linarith
    have hf0 : f ≠ 0 := by
      intro h; rw [h] at hfn; simp at hfn
    have hfp : 0 < ‖f‖ := norm_pos_iff.2 hf0
    have hfc : (‖f‖ : ℂ) ≠ 0 := by exact_mod_cast hfp.ne'
    have hVdet : V.det = 1 := by rw [hVt, det_smul]; exact h3
    set c := f / (‖f‖ : ℂ) with hc
    have hcn : ‖c‖ = 1 := by rw [hc, norm_div, Complex.norm_real, norm_norm, div_self hfp.ne']
    have hW : A * B * (A * B)ᴴ = 1 := by
      rw [conjTranspose_mul]
      calc A * B * (Bᴴ * Aᴴ) = A * (B * Bᴴ) * Aᴴ := by simp only [Matrix.mul_assoc]
        _ = 1 := by rw [hB, Matrix.mul_one, hA]
    refine ⟨hVdet, A * B, c, hW, ?_, hcn, ⟨?_, ?_⟩, ?_⟩
    · have e : sv A B s * (A * B)ᴴ = A * diagonal (fun i => (s i : ℂ)) * Aᴴ := by
        unfold sv
        rw [conjTranspose_mul]
        calc A * diagonal (fun i => (s i : ℂ)) * B * (Bᴴ * Aᴴ) = A * diagonal (fun i => (s i : ℂ)) * (B * Bᴴ) * Aᴴ := by simp only [Matrix.mul_assoc]
          _ = _ := by rw [hB, Matrix.mul_one]
      rw [e]
      refine Matrix.PosDef.mul_mul_conjTranspose_same (posDef_diagonal_iff.2 fun i => by exact_mod_cast hs i) ?_
      intro x y h
      have := congrArg (fun v => v ᵥ* Aᴴ) h
      simpa [vecMul_vecMul, hA] using this
    · rw [conjTranspose_smul, Matrix.smul_mul, Matrix.mul_smul, hW, smul_smul]
      have : c * star c = 1 := by
        show c * conj c = 1
        rw [Complex.mul_conj, Complex.normSq_eq_norm_sq, hcn]; norm_num
      rw [this, one_smul]
    · rw [det_smul, det_mul, Fintype.card_fin]
      rw [hdet] at h3
      have hn3 : (‖f‖ : ℂ) ^ 3 * ((∏ i, t i : ℝ) : ℂ) = 1 := by exact_mod_cast hfn
      have : c ^ 3 * (A.det * B.det) = (f ^ 3 * (A.det * ((∏ i, t i : ℝ) : ℂ) * B.det)) / ((‖f‖ : ℂ) ^ 3 * ((∏ i, t i : ℝ) : ℂ)) := by
        have hp : ((∏ i, t i : ℝ) : ℂ) ≠ 0 := by exact_mod_cast (lt_of_lt_of_le one_pos hprod1).ne'
        rw [hc]
        field_simp
      rw [this, h3, hn3, div_one]
    · have e : V - c • (A * B) = c • sv A B (fun i => ‖f‖ * t i - 1) := by
        have e1 : sv A B (fun i => ‖f‖ * t i - 1) = (‖f‖ : ℂ) • sv A B t - A * B := by
          unfold sv
          have : (diagonal fun i => ((‖f‖ * t i - 1 : ℝ) : ℂ)) = (‖f‖ : ℂ) • diagonal (fun i => (t i : ℂ)) - (1 : M3) := by
            rw [← diagonal_one, ← diagonal_smul, diagonal_sub]
            congr 1
            funext i; simp
          rw [this, Matrix.mul_sub, Matrix.sub_mul, Matrix.mul_smul, Matrix.smul_mul, Matrix.mul_one]
        rw [e1, smul_sub, smul_smul, hVt, hc, div_mul_cancel₀ _ hfc]
      rw [e, norm2_smul, hcn, norm2_sv hA hB]
      have hf1 : ‖f‖ ≤ 1 := by
        by_contra h
        push Not at h
        have : 1 < ‖f‖ ^ 3 := one_lt_pow₀ h (by norm_num)
        nlinarith
      have ht3 : ∏ i, t i ≤ (1 + 28 * tol ^ 2) ^ 3 := by
        refine (Finset.prod_le_prod (fun i _ => zero_le_one.trans (ht i).1) fun i _ => (ht i).2).trans ?_
        simp
      have hfl : 1 ≤ ‖f‖ * (1 + 28 * tol ^ 2) := by
        by_contra h
        push Not at h
        have hp : 0 ≤ ‖f‖ * (1 + 28 * tol ^ 2) := by positivity
        have : (‖f‖ * (1 + 28 * tol ^ 2)) ^ 3 < 1 := pow_lt_one₀ hp h (by norm_num)
        rw [mul_pow] at this
        have h4 : ‖f‖ ^ 3 * ∏ i, t i ≤ ‖f‖ ^ 3 * (1 + 28 * tol ^ 2) ^ 3 := mul_le_mul_of_nonneg_left ht3 (by positivity)
        linarith
      have hb : ∀ i, (‖f‖ * t i - 1) ^ 2 ≤ (28 * tol ^ 2) ^ 2 := by
        intro i
        have a := (ht i).1
        have b := (ht i).2
        refine sq_le_sq' ?_ ?_
        · have : ‖f‖ ≤ ‖f‖ * t i := le_mul_of_one_le_right hfp.le a
          nlinarith [sq_nonneg tol]
        · have : ‖f‖ * t i ≤ 1 * (1 + 28 * tol ^ 2) := mul_le_mul hf1 b (by linarith) zero_le_one
          linarith
      refine Real.sqrt_le_iff.2 ⟨by positivity, ?_⟩
      have := Finset.sum_le_sum fun (i : Fin 3) (_ : i ∈ Finset.univ) => hb i
      simp only [Finset.sum_const, Finset.card_univ, Fintype.card_fin, nsmul_eq_mul] at this
      push_cast at this
      nlinarith [sq_nonneg (tol ^ 2)]

/-- the hypotheses are met by a matrix far from unitary, with the tolerance of the code: some forty turns are enough -/
example : ∃ X : M3, X.det ≠ 0 ∧ ¬ X * Xᴴ = 1 ∧ (invertingLoop 1e-15 60 X).isSome := by
  refine ⟨diagonal ![2, 1, 5], ?_, ?_, ?_⟩
  · rw [det_diagonal, Fin.prod_univ_three]; simp
  · intro h
    have := congrFun (congrFun h 0) 0
    rw [Matrix.diagonal_conjTranspose, diagonal_mul_diagonal, diagonal_apply_eq] at this
    simp at this
    norm_num at this
  · refine (C37_inverting_converges 1e-15 (by norm_num) (by norm_num) _ ?_).1 55 ?_ 60 (by norm_num)
    · rw [det_diagonal, Fin.prod_univ_three]; simp
    · have e : (diagonal ![2, 1, 5] : M3)⁻¹ = diagonal ![1/2, 1, 1/5] := by
        refine inv_eq_right_inv ?_
        rw [diagonal_mul_diagonal, ← diagonal_one]
        congr 1
        funext i; fin_cases i <;> simp
      rw [e]
      have h1 : su3_norm2 (diagonal ![2, 1, 5]) = 30 := by
        simp [norm2_entries, Fin.sum_univ_three, diagonal, Complex.normSq_apply]; norm_num
      have h2 : su3_norm2 (diagonal ![1/2, 1, 1/5]) ≤ 2 := by
        simp [norm2_entries, Fin.sum_univ_three, diagonal, Complex.normSq_apply]; norm_num
      rw [h1]
      have : (4 : ℝ) ^ 55 * 1e-15 ^ 2 ≥ 1000 := by norm_num
      linarith

end

end Nissa.Su3f
