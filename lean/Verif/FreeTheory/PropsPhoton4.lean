import Verif.FreeTheory.PropsPhoton3
import Mathlib.Analysis.Matrix.PosDef
import Mathlib.Analysis.Matrix.Spectrum
import Mathlib.Data.Real.StarOrdered

/-! # C55: the square root of the gauge propagator -/

set_option linter.all false

namespace Nissa.Phot
open Nissa.Lx Nissa.Free Nissa.Fft Matrix Complex

/-- the contract of the eigensolver: orthonormal eigenvectors which rebuild the matrix, for each symmetric matrix -/
def SolverOk (sol : Solver) : Prop := ∀ A : R4, Aᵀ = A → (sol A).1 * (sol A).1ᵀ = 1 ∧ A = (sol A).1 * diagonal (sol A).2 * (sol A).1ᵀ

theorem frob_zero : frob 0 = 0 := by simp [frob]

theorem eva_nonneg {A U : R4} {e : Fin 4 → ℝ} (hA : A.PosSemidef) (hU : U * Uᵀ = 1) (h : A = U * diagonal e * Uᵀ) (i : Fin 4) : 0 ≤ e i := by
  have hU' : Uᵀ * U = 1 := mul_eq_one_comm.1 hU
  have hd : diagonal e = Uᵀ * A * U := by
    rw [h]
    calc diagonal e = (Uᵀ * U) * diagonal e * (Uᵀ * U) := by rw [hU', one_mul, mul_one]
      _ = _ := by simp only [Matrix.mul_assoc]
  have hp : (diagonal e).PosSemidef := by
    rw [hd, ← Matrix.conjTranspose_eq_transpose_of_trivial]
    exact hA.conjTranspose_mul_mul_same U
  have := Matrix.posSemidef_diagonal_iff.1 hp i
  exact this

theorem root_of {A U : R4} {e : Fin 4 → ℝ} (hU : U * Uᵀ = 1) (h : A = U * diagonal e * Uᵀ) (he : ∀ i, 0 ≤ e i) :
    (U * diagonal (fun i => Real.sqrt |e i|) * Uᵀ).PosSemidef ∧
    (U * diagonal (fun i => Real.sqrt |e i|) * Uᵀ) * (U * diagonal (fun i => Real.sqrt |e i|) * Uᵀ) = A := by
  have hU' : Uᵀ * U = 1 := mul_eq_one_comm.1 hU
  refine ⟨?_, ?_⟩
  · have hp : (diagonal (fun i => Real.sqrt |e i|)).PosSemidef := Matrix.posSemidef_diagonal_iff.2 fun i => Real.sqrt_nonneg _
    have := hp.mul_mul_conjTranspose_same U
    rwa [Matrix.conjTranspose_eq_transpose_of_trivial] at this
  · calc _ = U * (diagonal (fun i => Real.sqrt |e i|) * ((Uᵀ * U) * diagonal (fun i => Real.sqrt |e i|))) * Uᵀ := by simp only [Matrix.mul_assoc]
      _ = A := by
        rw [hU', one_mul, diagonal_mul_diagonal, h]
        congr 3; funext i
        rw [Real.mul_self_sqrt (abs_nonneg _), abs_of_nonneg (he i)]

/-- two non negative symmetric matrices with the same square are equal -/
theorem root_unique {R S : R4} (hR : R.PosSemidef) (hS : S.PosSemidef) (h : R * R = S * S) : R = S := by
  have tR : Rᵀ = R := by have := hR.1; rwa [Matrix.IsHermitian, Matrix.conjTranspose_eq_transpose_of_trivial] at this
  have tS : Sᵀ = S := by have := hS.1; rwa [Matrix.IsHermitian, Matrix.conjTranspose_eq_transpose_of_trivial] at this
  have tD : (R - S)ᴴ = R - S := by rw [Matrix.conjTranspose_eq_transpose_of_trivial, Matrix.transpose_sub, tR, tS]
  have p1 : ((R - S) * R * (R - S)).PosSemidef := by have := hR.mul_mul_conjTranspose_same (R - S); rwa [tD] at this
  have p2 : ((R - S) * S * (R - S)).PosSemidef := by have := hS.mul_mul_conjTranspose_same (R - S); rwa [tD] at this
  have t0 : ((R - S) * R * (R - S)).trace + ((R - S) * S * (R - S)).trace = 0 := by
    have e : (R - S) * R * (R - S) + (R - S) * S * (R - S) = (R * S * R - R * (R * S)) + (S * R * S - S * (S * R)) + ((R * R) * R - R * (S * S)) + ((S * S) * S - S * (R * R)) := by
      noncomm_ring
    rw [← Matrix.trace_add, e]
    have a0 : R * R * R - R * (S * S) = 0 := by rw [← h, Matrix.mul_assoc, sub_self]
    have a0' : S * S * S - S * (R * R) = 0 := by rw [h, Matrix.mul_assoc, sub_self]
    rw [a0, a0', add_zero, add_zero]
    simp only [Matrix.trace_add, Matrix.trace_sub]
    have a1 : (R * S * R).trace = (R * (R * S)).trace := by rw [Matrix.trace_mul_comm]
    have a2 : (S * R * S).trace = (S * (S * R)).trace := by rw [Matrix.trace_mul_comm]
    rw [a1, a2]; ring
  have n1 := p1.trace_nonneg
  have n2 := p2.trace_nonneg
  have z1 : (R - S) * R * (R - S) = 0 := p1.trace_eq_zero_iff.1 (by linarith)
  have z2 : (R - S) * S * (R - S) = 0 := p2.trace_eq_zero_iff.1 (by linarith)
  have z3 : (R - S) * (R - S) * (R - S) = 0 := by
    have : (R - S) * (R - S) * (R - S) = (R - S) * R * (R - S) - (R - S) * S * (R - S) := by noncomm_ring
    rw [this, z1, z2, sub_zero]
  have z4 : ((R - S) * (R - S))ᴴ * ((R - S) * (R - S)) = 0 := by
    rw [Matrix.conjTranspose_mul, tD]
    calc (R - S) * (R - S) * ((R - S) * (R - S)) = (R - S) * (R - S) * (R - S) * (R - S) := by simp only [Matrix.mul_assoc]
      _ = 0 := by rw [z3, zero_mul]
  have z5 : (R - S) * (R - S) = 0 := Matrix.conjTranspose_mul_self_eq_zero.1 z4
  have z6 : (R - S)ᴴ * (R - S) = 0 := by rw [tD]; exact z5
  exact sub_eq_zero.1 (Matrix.conjTranspose_mul_self_eq_zero.1 z6)

/-- action of a real matrix -/
noncomputable def actR (R : R4) (v : Site 4) : Site 4 := fun mu => ∑ nu, (R mu nu : ℂ) * v nu

theorem actR_mul (R S : R4) (v : Site 4) : actR (R * S) v = actR R (actR S v) := by
  funext mu
  simp only [actR, Matrix.mul_apply, Fin.sum_univ_four]
  push_cast; ring

theorem prodField_real (D : R4) (V : ℝ) (v : Site 4) : prodField (fun mu nu => ((D mu nu / V : ℝ) : ℂ)) v = actR ((1 / V) • D) v := by
  funext mu
  simp only [prodField, actR, List.foldl_cons, List.foldl_nil, Fin.sum_univ_four, Matrix.smul_apply, smul_eq_mul]
  push_cast; ring

/-- C55: with an eigensolver which satisfies its contract the square root never crashes on a gauge of non positive `c1`; it multiplies by the only non negative symmetric matrix whose square is
the propagator -/
theorem C55_sqrt (sol : Solver) (hs : SolverOk sol) (g : Geo) (gl : GaugeInfo) (c : Coords) (hc : gl.c1 ≤ 0) (hg : gl.gauge = .coulomb → gl.c1 = 0) :
    ∃ P R : R4, propagator g gl c = some (fun mu nu => (P mu nu : ℂ)) ∧ R.PosSemidef ∧ R * R = P ∧ (∀ S : R4, S.PosSemidef → S * S = P → S = R) ∧
      ∀ inp, sqrtSite (some sol) (fun mu nu => (P mu nu : ℂ)) inp = some (fun mu => ∑ nu, (R mu nu : ℂ) * inp nu) := by
  obtain ⟨D, e, pD⟩ := C55_positive g gl c hc hg
  have pP : ((1 / (g.glbVol : ℝ)) • D : R4).PosSemidef := pD.smul (by positivity)
  have tP : ((1 / (g.glbVol : ℝ)) • D : R4)ᵀ = (1 / (g.glbVol : ℝ)) • D := by
    have := pP.1; rwa [Matrix.IsHermitian, Matrix.conjTranspose_eq_transpose_of_trivial] at this
  obtain ⟨hU, hA⟩ := hs _ tP
  have he := eva_nonneg pP hU hA
  obtain ⟨r1, r2⟩ := root_of hU hA he
  refine ⟨(1 / (g.glbVol : ℝ)) • D, _, ?_, r1, r2, fun S h1 h2 => root_unique h1 r1 (by rw [h2, r2]), fun inp => ?_⟩
  · rw [e]; congr 1; funext mu nu; rw [Matrix.smul_apply, smul_eq_mul]; congr 1; ring
  · unfold sqrtSite
    simp only [Complex.ofReal_re]
    rw [show (fun mu nu => ((1 / (g.glbVol : ℝ)) • D : R4) mu nu) = ((1 / (g.glbVol : ℝ)) • D : R4) from rfl]
    rw [if_neg, if_neg]
    · rw [r2, sub_self, frob_zero]
      intro h; exact absurd h.2.2 (by norm_num)
    · rw [not_lt]
      refine le_trans (by norm_num) (le_min (le_min (he 0) (he 1)) (le_min (he 2) (he 3)))

/-- such an eigensolver exists -/
theorem solver_exists : ∃ sol : Solver, SolverOk sol := by
  classical
  have key : ∀ A : R4, ∃ U : R4 × (Fin 4 → ℝ), Aᵀ = A → U.1 * U.1ᵀ = 1 ∧ A = U.1 * diagonal U.2 * U.1ᵀ := fun A => by
    by_cases h : Aᵀ = A
    · have hA : A.IsHermitian := by rw [Matrix.IsHermitian, Matrix.conjTranspose_eq_transpose_of_trivial]; exact h
      refine ⟨((hA.eigenvectorUnitary : R4), hA.eigenvalues), fun _ => ⟨?_, ?_⟩⟩
      · have := Unitary.mul_star_self_of_mem hA.eigenvectorUnitary.2
        rwa [Matrix.star_eq_conjTranspose, Matrix.conjTranspose_eq_transpose_of_trivial] at this
      · have := hA.spectral_theorem
        simp only [Unitary.conjStarAlgAut_apply] at this
        rw [Matrix.star_eq_conjTranspose, Matrix.conjTranspose_eq_transpose_of_trivial] at this
        exact this
    · exact ⟨(0, 0), fun h' => absurd h' h⟩
  choose f hf using key
  exact ⟨f, hf⟩

/-- C55: without Eigen, in Feynman gauge for the Wilson action, the propagator is diagonal and the square root is multiplied -/
theorem C55_sqrt_noeigen (g : Geo) (gl : GaugeInfo) (c : Coords) (hc : gl.c1 = 0) (hg : gl.gauge = .feynman) :
    ∃ P R : R4, propagator g gl c = some (fun mu nu => (P mu nu : ℂ)) ∧ R.PosSemidef ∧ R * R = P ∧ (∀ S : R4, S.PosSemidef → S * S = P → S = R) ∧
      ∀ inp, sqrtSite none (fun mu nu => (P mu nu : ℂ)) inp = some (fun mu => ∑ nu, (R mu nu : ℂ) * inp nu) := by
  have key : ∀ a : ℝ, 0 ≤ a → propagator g gl c = some (fun mu nu => ((a • (1 : R4)) mu nu : ℂ)) → ∃ P R : R4, propagator g gl c = some (fun mu nu => (P mu nu : ℂ)) ∧ R.PosSemidef ∧ R * R = P ∧
      (∀ S : R4, S.PosSemidef → S * S = P → S = R) ∧ ∀ inp, sqrtSite none (fun mu nu => (P mu nu : ℂ)) inp = some (fun mu => ∑ nu, (R mu nu : ℂ) * inp nu) := fun a ha e => by
    have p1 : (Real.sqrt a • (1 : R4)).PosSemidef := Matrix.PosSemidef.one.smul (Real.sqrt_nonneg _)
    have p2 : (Real.sqrt a • (1 : R4)) * (Real.sqrt a • (1 : R4)) = a • (1 : R4) := by
      rw [Matrix.smul_mul, Matrix.one_mul, smul_smul, Real.mul_self_sqrt ha]
    refine ⟨a • 1, Real.sqrt a • 1, e, p1, p2, fun S h1 h2 => root_unique h1 p1 (by rw [h2, p2]), fun inp => ?_⟩
    unfold sqrtSite
    simp only [Complex.ofReal_re, Matrix.smul_apply, smul_eq_mul, Matrix.one_apply_eq, mul_one]
    congr 1; funext mu
    rw [Finset.sum_eq_single mu]
    · rw [Matrix.one_apply_eq, mul_one]
      apply Complex.ext <;> simp [mul_comm]
    · intro nu _ h; rw [Matrix.one_apply_ne (Ne.symm h)]; simp
    · intro h; exact absurd (Finset.mem_univ _) h
  have zero : propagator g gl c = some 0 → propagator g gl c = some (fun mu nu => (((0 : ℝ) • (1 : R4)) mu nu : ℂ)) := fun h => by
    rw [h]; congr 1; funext mu nu; simp
  by_cases hn : isNonZeroMode gl c = true
  · by_cases hk : 1e-14 ≤ ksq g.L gl.bc c
    · obtain ⟨D, e, -, hD, -⟩ := C55_feynman g gl c hg hc.le hn hk
      have hp : 0 < ksq g.L gl.bc c := lt_of_lt_of_le (by norm_num) hk
      rw [hc, kernel_wilson, sub_add_cancel, Matrix.smul_mul, Matrix.one_mul] at hD
      have hD' : D = (1 / ksq g.L gl.bc c) • (1 : R4) := by
        rw [← hD, smul_smul, one_div, inv_mul_cancel₀ hp.ne', one_smul]
      refine key (1 / ksq g.L gl.bc c / g.glbVol) (by positivity) ?_
      rw [e, hD']; congr 1; funext mu nu; simp only [Matrix.smul_apply, smul_eq_mul]; congr 1; ring
    · exact key 0 le_rfl (zero ((C55_zero_mode g gl c).2.2 (by rw [hg]; decide) (not_le.1 hk)))
  · exact key 0 le_rfl (zero ((C55_zero_mode g gl c).2.1 (by simpa using hn)))

end Nissa.Phot
