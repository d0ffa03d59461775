import Verif.FreeTheory.PropsPhoton

/-! # C55: the gauge propagator inverts the kernel of the action -/

set_option linter.all false

namespace Nissa.Phot
open Nissa.Lx Nissa.Free Nissa.Fft Matrix Complex

abbrev R4 := Matrix (Fin 4) (Fin 4) ℝ

theorem loop_ok (L : Coords) (bc : Dir → ℝ) (c : Coords) : (momLoop L bc c).kt = khat L bc c ∧ MomOk (momLoop L bc c) := by
  unfold momLoop MomOk
  simp only [dirs, List.foldl_cons, List.foldl_nil, momStep]
  have h : ∀ mu, 2 * Real.sin (Real.pi * (2 * (c mu : ℝ) + bc mu) / L mu / 2) = khat L bc c mu := fun mu => rfl
  simp only [h]
  have e : (Function.update (Function.update (Function.update (Function.update (fun _ => (0 : ℝ)) 0 (khat L bc c 0)) 1 (khat L bc c 1)) 2 (khat L bc c 2)) 3 (khat L bc c 3)) = khat L bc c := by
    funext mu; fin_cases mu <;> simp [Function.update]
  have e' : (Function.update (Function.update (Function.update (Function.update (fun _ => (0 : ℝ)) 0 (khat L bc c 0)) 1 (khat L bc c 1)) 2 (khat L bc c 2)) 3 (khat L bc c 3) : Dir → ℝ) = khat L bc c := e
  refine ⟨e, ?_⟩
  rw [e']
  simp only [Fin.sum_univ_four]
  refine ⟨by ring, by ring, by ring⟩

theorem delta_pos (c1 : ℝ) (hc : c1 ≤ 0) (m : Mom) (hm : MomOk m) (hp : 0 < m.kt2) : 0 < Deltakt c1 m := by
  rw [Delta_eq c1 m hm]
  have he : m.kt2 = m.kt 0 ^ 2 + m.kt 1 ^ 2 + m.kt 2 ^ 2 + m.kt 3 ^ 2 := by rw [hm.1, Fin.sum_univ_four]
  rw [he] at hp
  have g0 := sq_nonneg (m.kt 0); have g1 := sq_nonneg (m.kt 1); have g2 := sq_nonneg (m.kt 2); have g3 := sq_nonneg (m.kt 3)
  unfold DeltaP
  generalize m.kt 0 ^ 2 = x0 at *; generalize m.kt 1 ^ 2 = x1 at *; generalize m.kt 2 ^ 2 = x2 at *; generalize m.kt 3 ^ 2 = x3 at *
  obtain ⟨e, hee⟩ : ∃ e, e = x0 + x1 + x2 + x3 := ⟨_, rfl⟩
  obtain ⟨p2, hpp⟩ : ∃ e, e = x0 ^ 2 + x1 ^ 2 + x2 ^ 2 + x3 ^ 2 := ⟨_, rfl⟩
  obtain ⟨p3, hppp⟩ : ∃ e, e = x0 ^ 3 + x1 ^ 3 + x2 ^ 3 + x3 ^ 3 := ⟨_, rfl⟩
  simp only [← hee, ← hpp, ← hppp]
  have hp' : 0 < e := hee ▸ hp
  have hp2 : 0 ≤ p2 := by rw [hpp]; positivity
  have hp3 : 0 ≤ p3 := by rw [hppp]; positivity
  have hE : p2 ≤ e ^ 2 := by
    rw [hpp, hee]
    nlinarith [mul_nonneg g0 g1, mul_nonneg g0 g2, mul_nonneg g0 g3, mul_nonneg g1 g2, mul_nonneg g1 g3, mul_nonneg g2 g3]
  have a1 : 0 < e - c1 * p2 := by nlinarith [mul_nonneg (neg_nonneg.2 hc) hp2]
  have a2 : 0 ≤ -c1 * (e ^ 2 + p2) := mul_nonneg (neg_nonneg.2 hc) (by positivity)
  have a3 : 0 ≤ c1 ^ 2 * (e ^ 3 + 2 * p3 - e * p2) / 2 := by
    have : 0 ≤ e ^ 3 - e * p2 := by nlinarith
    have : 0 ≤ e ^ 3 + 2 * p3 - e * p2 := by linarith
    positivity
  have a4 : 0 ≤ -(4 * c1 ^ 3 * (x0 * x1 * x2 * x3 * e)) := by
    have h3 : 0 ≤ -c1 ^ 3 := by
      have : 0 ≤ (-c1) ^ 3 := pow_nonneg (neg_nonneg.2 hc) 3
      rwa [Odd.neg_pow (by decide)] at this
    have h5 : 0 ≤ x0 * x1 * x2 * x3 * e := by positivity
    nlinarith [mul_nonneg h3 h5]
  have a5 := mul_pos a1 (show 0 < e - c1 * (e ^ 2 + p2) + c1 ^ 2 * (e ^ 3 + 2 * p3 - e * p2) / 2 by linarith)
  linarith

theorem fold_N (A : Dir → Dir → ℝ) (hA : ∀ nu, A nu nu = 0) (k : Dir → ℝ) (a : ℝ) (mu nu : Dir) :
    dirs.foldl (fun a si => a + (k si * kron mu nu - k nu * kron mu si) * k si * A si nu) a = a + Nmat A k mu nu := by
  have e : dirs.foldl (fun a si => a + (k si * kron mu nu - k nu * kron mu si) * k si * A si nu) a = a + ∑ si, (k si * kron mu nu - k nu * kron mu si) * k si * A si nu := by
    simp only [dirs, List.foldl_cons, List.foldl_nil, Fin.sum_univ_four]; ring
  rw [e]
  congr 1
  have e2 : ∀ si, (k si * kron mu nu - k nu * kron mu si) * k si * A si nu = kron mu nu * (k si ^ 2 * A si nu) - (if mu = si then k nu * k si * A si nu else 0) := by
    intro si; unfold kron; split <;> split <;> ring
  simp only [e2]
  rw [Finset.sum_sub_distrib, Finset.sum_ite_eq, if_pos (Finset.mem_univ _), ← Finset.mul_sum]
  unfold Nmat kron
  by_cases h : mu = nu
  · subst h; rw [if_pos rfl, if_pos rfl, hA]; ring
  · rw [if_neg h, if_neg h]; ring

theorem N_div (B : Dir → Dir → ℝ) (D : ℝ) (k : Dir → ℝ) : Nmat (fun mu nu => B mu nu / D) k = (1 / D) • Nmat B k := by
  ext mu nu
  show _ = (1 / D) * Nmat B k mu nu
  unfold Nmat
  split
  · rw [Finset.mul_sum]; exact Finset.sum_congr rfl fun _ _ => by ring
  · ring

theorem N_symm (B : Dir → Dir → ℝ) (hB : ∀ mu nu, B mu nu = B nu mu) (k : Dir → ℝ) : (Nmat B k)ᵀ = Nmat B k := by
  ext mu nu
  rw [Matrix.transpose_apply]
  unfold Nmat
  by_cases h : mu = nu
  · subst h; rfl
  · rw [if_neg h, if_neg (Ne.symm h), hB]; ring

theorem N_trans (B : Dir → Dir → ℝ) (hB : ∀ mu, B mu mu = 0) (hs : ∀ mu nu, B mu nu = B nu mu) (k : Dir → ℝ) : Nmat B k *ᵥ k = 0 := by
  funext mu
  simp only [mulVec, dotProduct, Nmat, Fin.sum_univ_four, Pi.zero_apply]
  have h00 := hB 0; have h11 := hB 1; have h22 := hB 2; have h33 := hB 3
  have b10 := hs 1 0; have b20 := hs 2 0; have b30 := hs 3 0; have b21 := hs 2 1; have b31 := hs 3 1; have b32 := hs 3 2
  fin_cases mu <;> simp [h00, h11, h22, h33, b10, b20, b30, b21, b31, b32] <;> ring

theorem kernelOf_symm (k : Dir → ℝ) (q : Dir → Dir → ℝ) (hq : ∀ mu nu, q mu nu = q nu mu) : (kernelOf k q)ᵀ = kernelOf k q := by
  ext mu nu
  rw [Matrix.transpose_apply]
  unfold kernelOf
  by_cases h : mu = nu
  · subst h; rfl
  · rw [if_neg h, if_neg (Ne.symm h), hq]; ring

theorem kernelOf_trans (k : Dir → ℝ) (q : Dir → Dir → ℝ) (hq : ∀ mu nu, q mu nu = q nu mu) : kernelOf k q *ᵥ k = 0 := by
  funext mu
  simp only [mulVec, dotProduct, kernelOf, Fin.sum_univ_four, Pi.zero_apply]
  have b10 := hq 1 0; have b20 := hq 2 0; have b30 := hq 3 0; have b21 := hq 2 1; have b31 := hq 3 1; have b32 := hq 3 2
  fin_cases mu <;> simp [b10, b20, b30, b21, b31, b32] <;> ring

/-- momentum of coordinates `c` -/
noncomputable abbrev momV (L : Coords) (bc : Dir → ℝ) (c : Coords) : Dir → ℝ := fun mu => lattMom (c mu) (bc mu) (L mu)

theorem kernel_eq (c1 : ℝ) (L : Coords) (bc : Dir → ℝ) (c : Coords) :
    kernel c1 (momV L bc c) = kernelOf (khat L bc c) (fun mu nu => 1 - c1 * (khat L bc c mu ^ 2 + khat L bc c nu ^ 2)) := by
  unfold kernel
  congr 1
  funext mu nu
  rw [planar_eq]; rfl

/-- squared lattice momentum -/
noncomputable def ksq (L : Coords) (bc : Dir → ℝ) (c : Coords) : ℝ := ∑ mu, khat L bc c mu ^ 2

/-- spatial squared lattice momentum -/
noncomputable def kspat (L : Coords) (bc : Dir → ℝ) (c : Coords) : ℝ := khat L bc c 1 ^ 2 + khat L bc c 2 ^ 2 + khat L bc c 3 ^ 2

/-- the propagator of the kernel `K` of momentum `k` in the gauge fixed by `sum_mu w_mu a_mu=0`: the symmetric matrix respecting the gauge condition
and inverting the kernel on the fields orthogonal to the pure gauge ones -/
def FixedProp (K : R4) (k w : Dir → ℝ) (D : R4) : Prop := Dᵀ = D ∧ D *ᵥ w = 0 ∧ K * D = 1 - vecMulVec w k

/-- the value of the propagator, in Feynman or Landau gauge -/
theorem cov_value (g : Geo) (gl : GaugeInfo) (c : Coords) (hg : gl.gauge ≠ .coulomb) (hn : isNonZeroMode gl c = true) (hk : 1e-14 ≤ ksq g.L gl.bc c) :
    propagator g gl c = some (fun mu nu => ((((if gl.gauge = .feynman then 1 else 0) * khat g.L gl.bc c mu * khat g.L gl.bc c nu +
      (1 / Deltakt gl.c1 (momLoop g.L gl.bc c)) * Nmat (Bmat gl.c1 (momLoop g.L gl.bc c)) (khat g.L gl.bc c) mu nu) / (ksq g.L gl.bc c ^ 2) / g.glbVol : ℝ) : ℂ)) := by
  obtain ⟨h1, h2⟩ := loop_ok g.L gl.bc c
  have hsq : (momLoop g.L gl.bc c).kt2 = ksq g.L gl.bc c := by rw [h2.1, h1]; rfl
  unfold propagator
  simp only [hn, Bool.not_true, Bool.false_eq_true, if_false, hg]
  congr 1
  funext mu nu
  unfold cancelProp covariantProp
  simp only [hn, num, if_true, mul_one]
  rw [fold_N _ (fun nu => by simp [Amat, kron]), hsq, if_pos (by rw [abs_of_nonneg (by linarith [show (0:ℝ) ≤ 1e-14 by norm_num])]; exact hk)]
  rw [show Amat gl.c1 (momLoop g.L gl.bc c) = fun mu nu => Bmat gl.c1 (momLoop g.L gl.bc c) mu nu / Deltakt gl.c1 (momLoop g.L gl.bc c) from by funext a b; exact Amat_eq _ _ _ _]
  rw [N_div, h1]
  apply Complex.ext
  · simp only [Complex.ofReal_re, Matrix.smul_apply, smul_eq_mul]
    rw [div_div]; ring_nf
  · rw [Complex.ofReal_im]

theorem B_symm (c1 : ℝ) (m : Mom) (mu nu : Dir) : Bmat c1 m mu nu = Bmat c1 m nu mu := by
  unfold Bmat
  fin_cases mu <;> fin_cases nu <;> simp [ktso2, ktpo2, dirs]

/-- the matrix in Landau gauge -/
noncomputable def landauD (c1 : ℝ) (L : Coords) (bc : Dir → ℝ) (c : Coords) : R4 :=
  fun mu nu => (1 / Deltakt c1 (momLoop L bc c)) * Nmat (Bmat c1 (momLoop L bc c)) (khat L bc c) mu nu / (ksq L bc c ^ 2)

theorem landauD_eq (c1 : ℝ) (L : Coords) (bc : Dir → ℝ) (c : Coords) :
    landauD c1 L bc c = ((1 / Deltakt c1 (momLoop L bc c) / ksq L bc c ^ 2) • Nmat (Bmat c1 (momLoop L bc c)) (khat L bc c) : R4) := by
  ext mu nu
  show _ = (1 / Deltakt c1 (momLoop L bc c) / ksq L bc c ^ 2) * Nmat (Bmat c1 (momLoop L bc c)) (khat L bc c) mu nu
  unfold landauD
  ring

theorem landau_fixed (c1 : ℝ) (hc : c1 ≤ 0) (L : Coords) (bc : Dir → ℝ) (c : Coords) (hk : 0 < ksq L bc c) :
    FixedProp (kernel c1 (momV L bc c)) (khat L bc c) (fun mu => khat L bc c mu / ksq L bc c)
      (landauD c1 L bc c) := by
  rw [landauD_eq]
  obtain ⟨h1, h2⟩ := loop_ok L bc c
  have hsq : (momLoop L bc c).kt2 = ksq L bc c := by rw [h2.1, h1]; rfl
  have hD := delta_pos c1 hc _ h2 (by rw [hsq]; exact hk)
  have hKN := kernel_mul c1 _ h2
  rw [h1, hsq, ← kernel_eq] at hKN
  have hT := N_trans (Bmat c1 (momLoop L bc c)) (fun mu => by simp [Bmat]) (B_symm c1 _) (khat L bc c)
  have hS := N_symm (Bmat c1 (momLoop L bc c)) (B_symm c1 _) (khat L bc c)
  generalize Deltakt c1 (momLoop L bc c) = Δ at *
  generalize Nmat (Bmat c1 (momLoop L bc c)) (khat L bc c) = N at *
  generalize kernel c1 (momV L bc c) = K at *
  generalize khat L bc c = k at *
  generalize ksq L bc c = s at *
  have ew : (fun mu => k mu / s) = (1 / s) • k := by funext mu; rw [Pi.smul_apply, smul_eq_mul]; ring
  rw [ew]
  refine ⟨by rw [Matrix.transpose_smul, hS], by rw [Matrix.smul_mulVec, Matrix.mulVec_smul, hT, smul_zero, smul_zero], ?_⟩
  rw [Matrix.mul_smul, hKN, smul_smul, smul_sub, smul_smul, smul_smul, Matrix.smul_vecMulVec]
  congr 1
  · rw [show 1 / Δ / s ^ 2 * Δ * s ^ 2 = 1 by field_simp, one_smul]
  · congr 1; field_simp

/-- C55: the propagator in Landau gauge -/
theorem C55_landau (g : Geo) (gl : GaugeInfo) (c : Coords) (hg : gl.gauge = .landau) (hc : gl.c1 ≤ 0) (hn : isNonZeroMode gl c = true) (hk : 1e-14 ≤ ksq g.L gl.bc c) :
    ∃ D : R4, propagator g gl c = some (fun mu nu => ((D mu nu / g.glbVol : ℝ) : ℂ)) ∧
      FixedProp (kernel gl.c1 (momV g.L gl.bc c)) (khat g.L gl.bc c) (fun mu => khat g.L gl.bc c mu / ksq g.L gl.bc c) D := by
  refine ⟨landauD gl.c1 g.L gl.bc c, ?_, landau_fixed gl.c1 hc g.L gl.bc c (lt_of_lt_of_le (by norm_num) hk)⟩
  rw [cov_value g gl c (by rw [hg]; decide) hn hk, hg]
  simp only [show ¬(Gau.landau = Gau.feynman) from by decide, if_false, zero_mul, zero_add]
  rfl

/-- C55: the propagator in Feynman gauge: the inverse of the kernel of the action plus the squared divergence -/
theorem C55_feynman (g : Geo) (gl : GaugeInfo) (c : Coords) (hg : gl.gauge = .feynman) (hc : gl.c1 ≤ 0) (hn : isNonZeroMode gl c = true) (hk : 1e-14 ≤ ksq g.L gl.bc c) :
    ∃ D : R4, propagator g gl c = some (fun mu nu => ((D mu nu / g.glbVol : ℝ) : ℂ)) ∧ Dᵀ = D ∧
      (kernel gl.c1 (momV g.L gl.bc c) + vecMulVec (khat g.L gl.bc c) (khat g.L gl.bc c)) * D = 1 ∧
      FixedProp (kernel gl.c1 (momV g.L gl.bc c)) (khat g.L gl.bc c) (fun mu => khat g.L gl.bc c mu / ksq g.L gl.bc c)
        (D - (1 / ksq g.L gl.bc c ^ 2) • vecMulVec (khat g.L gl.bc c) (khat g.L gl.bc c)) := by
  have hp : 0 < ksq g.L gl.bc c := lt_of_lt_of_le (by norm_num) hk
  obtain ⟨f1, f2, f3⟩ := landau_fixed gl.c1 hc g.L gl.bc c hp
  have hT := kernelOf_trans (khat g.L gl.bc c) (fun mu nu => 1 - gl.c1 * (khat g.L gl.bc c mu ^ 2 + khat g.L gl.bc c nu ^ 2)) (fun _ _ => by ring)
  rw [← kernel_eq] at hT
  have hv := cov_value g gl c (by rw [hg]; decide) hn hk
  rw [hg] at hv
  simp only [if_true, one_mul] at hv
  have hkk : khat g.L gl.bc c ⬝ᵥ khat g.L gl.bc c = ksq g.L gl.bc c := by unfold ksq dotProduct; exact Finset.sum_congr rfl fun _ _ => by ring
  obtain ⟨DL, hDL⟩ : ∃ D, D = landauD gl.c1 g.L gl.bc c := ⟨_, rfl⟩
  rw [← hDL] at f1 f2 f3
  refine ⟨DL + (1 / ksq g.L gl.bc c ^ 2) • vecMulVec (khat g.L gl.bc c) (khat g.L gl.bc c), ?_, ?_, ?_, ?_⟩
  · rw [hv]
    congr 1
    funext mu nu
    rw [hDL]
    simp only [landauD, Matrix.add_apply, Matrix.smul_apply, vecMulVec_apply, smul_eq_mul]
    congr 2
    ring
  · rw [Matrix.transpose_add, f1, Matrix.transpose_smul, transpose_vecMulVec]
  · generalize kernel gl.c1 (momV g.L gl.bc c) = K at *
    generalize khat g.L gl.bc c = k at *
    generalize ksq g.L gl.bc c = s at *
    have f2' : DL *ᵥ k = 0 := by
      have : (fun mu => k mu / s) = (1 / s) • k := by funext mu; rw [Pi.smul_apply, smul_eq_mul]; ring
      rw [this, Matrix.mulVec_smul] at f2
      exact (smul_eq_zero.1 f2).resolve_left (by positivity)
    have f2'' : k ᵥ* DL = 0 := by rw [← f1, Matrix.vecMul_transpose, f2']
    rw [Matrix.add_mul, Matrix.mul_add, Matrix.mul_add, f3, Matrix.mul_smul, Matrix.mul_vecMulVec, hT, Matrix.vecMulVec_mul, f2'', Matrix.mul_smul, Matrix.vecMulVec_mul_vecMulVec, hkk]
    have z1 : vecMulVec (0 : Dir → ℝ) k = 0 := by ext; simp [vecMulVec_apply]
    have z2 : vecMulVec k (0 : Dir → ℝ) = 0 := by ext; simp [vecMulVec_apply]
    rw [z1, z2]
    ext mu nu
    simp only [Matrix.add_apply, Matrix.sub_apply, Matrix.smul_apply, vecMulVec_apply, smul_eq_mul, Matrix.zero_apply, Pi.smul_apply]
    field_simp
    ring
  · rw [add_sub_cancel_right]
    exact ⟨f1, f2, f3⟩

end Nissa.Phot
