import Verif.FreeTheory.PropsPhoton2
import Mathlib.Data.Real.StarOrdered

/-! # C55: Coulomb gauge, positivity, independence of the gauge, energy -/

set_option linter.all false

namespace Nissa.Phot
open Nissa.Lx Nissa.Free Nissa.Fft Matrix Complex

theorem kernel_wilson (L : Coords) (bc : Dir → ℝ) (c : Coords) :
    kernel 0 (momV L bc c) = ksq L bc c • (1 : R4) - vecMulVec (khat L bc c) (khat L bc c) := by
  rw [kernel_eq]
  ext mu nu
  simp only [Matrix.sub_apply, Matrix.smul_apply, vecMulVec_apply, smul_eq_mul, ksq]
  generalize khat L bc c = k
  fin_cases mu <;> fin_cases nu <;> simp [kernelOf, Fin.sum_univ_four] <;> ring

/-- the matrix in Coulomb gauge -/
noncomputable def coulombD (L : Coords) (bc : Dir → ℝ) (c : Coords) : R4 := fun mu nu =>
  ((if mu = nu then 1 else 0) - khat L bc c mu * khat L bc c nu * ((if nu = 0 then 0 else 1) + (if mu = 0 then 0 else 1) - 1) / kspat L bc c) / ksq L bc c

theorem spat_fold (m : Mom) : [1, 2, 3].foldl (fun a i => a + m.kt i * m.kt i) (0 : ℝ) = m.kt 1 ^ 2 + m.kt 2 ^ 2 + m.kt 3 ^ 2 := by
  simp only [List.foldl_cons, List.foldl_nil]; ring

theorem coul_value (g : Geo) (gl : GaugeInfo) (c : Coords) (hg : gl.gauge = .coulomb) (hc : gl.c1 = 0) (hn : isNonZeroMode gl c = true) (hk : 1e-14 < kspat g.L gl.bc c) :
    propagator g gl c = some (fun mu nu => ((coulombD g.L gl.bc c mu nu / g.glbVol : ℝ) : ℂ)) := by
  obtain ⟨h1, h2⟩ := loop_ok g.L gl.bc c
  have hsq : (momLoop g.L gl.bc c).kt2 = ksq g.L gl.bc c := by rw [h2.1, h1]; rfl
  have hsp : [1, 2, 3].foldl (fun a i => a + (momLoop g.L gl.bc c).kt i * (momLoop g.L gl.bc c).kt i) (0 : ℝ) = kspat g.L gl.bc c := by
    rw [spat_fold, h1]; rfl
  unfold propagator
  simp only [hn, Bool.not_true, Bool.false_eq_true, if_false, hg, if_true, hc, ne_eq, not_true]
  congr 1
  funext mu nu
  unfold cancelProp coulombProp
  simp only [hn, num, if_true, mul_one]
  rw [hsp, if_pos (by rw [abs_of_nonneg (by linarith [show (0:ℝ) ≤ 1e-14 by norm_num])]; exact hk)]
  apply Complex.ext
  · rw [Complex.ofReal_re, h1, hsq]
    unfold coulombD
    have e : ∀ i : Dir, (if decide (i ≠ 0) = true then (1 : ℝ) else 0) = if i = 0 then 0 else 1 := fun i => by by_cases h : i = 0 <;> simp [h]
    have e' : (if decide (mu = nu) = true then (1 : ℝ) else 0) = if mu = nu then 1 else 0 := by simp
    rw [e, e, e']
  · rw [Complex.ofReal_im]

/-- gauge vector of the Coulomb gauge -/
noncomputable def wCoul (L : Coords) (bc : Dir → ℝ) (c : Coords) : Dir → ℝ := fun mu => if mu = 0 then 0 else khat L bc c mu / kspat L bc c

theorem coul_fixed (L : Coords) (bc : Dir → ℝ) (c : Coords) (hk : 0 < kspat L bc c) :
    FixedProp (kernel 0 (momV L bc c)) (khat L bc c) (wCoul L bc c) (coulombD L bc c) := by
  have hs : ksq L bc c = khat L bc c 0 ^ 2 + kspat L bc c := by unfold ksq kspat; rw [Fin.sum_univ_four]; ring
  have hsp : kspat L bc c = khat L bc c 1 ^ 2 + khat L bc c 2 ^ 2 + khat L bc c 3 ^ 2 := rfl
  have h0 : ksq L bc c ≠ 0 := by rw [hs]; positivity
  refine ⟨?_, ?_, ?_⟩
  · ext mu nu
    rw [Matrix.transpose_apply]
    unfold coulombD
    rw [show (if nu = mu then (1 : ℝ) else 0) = if mu = nu then 1 else 0 from by by_cases h : mu = nu <;> simp [h, eq_comm]]
    ring
  · funext mu
    simp only [mulVec, dotProduct, Fin.sum_univ_four, coulombD, wCoul, Pi.zero_apply]
    generalize ksq L bc c = s at *
    generalize kspat L bc c = t at *
    generalize khat L bc c = k at *
    fin_cases mu <;> simp <;> field_simp <;> rw [hsp] <;> ring
  · rw [kernel_wilson]
    ext mu nu
    rw [Matrix.sub_mul, Matrix.smul_mul, Matrix.one_mul, Matrix.vecMulVec_mul]
    simp only [Matrix.sub_apply, Matrix.smul_apply, vecMulVec_apply, smul_eq_mul, vecMul, dotProduct, Fin.sum_univ_four, coulombD, wCoul]
    generalize ksq L bc c = s at *
    generalize kspat L bc c = t at *
    generalize khat L bc c = k at *
    fin_cases mu <;> fin_cases nu <;> simp <;> field_simp <;> rw [hs] <;> simp only [hsp] <;> (first | ring1 | (right; ring1) | simp)

/-- C55: the propagator in Coulomb gauge, for the Wilson action -/
theorem C55_coulomb (g : Geo) (gl : GaugeInfo) (c : Coords) (hg : gl.gauge = .coulomb) (hn : isNonZeroMode gl c = true) :
    (gl.c1 ≠ 0 → propagator g gl c = none) ∧
    (gl.c1 = 0 → 1e-14 < kspat g.L gl.bc c → ∃ D : R4, propagator g gl c = some (fun mu nu => ((D mu nu / g.glbVol : ℝ) : ℂ)) ∧
      FixedProp (kernel 0 (momV g.L gl.bc c)) (khat g.L gl.bc c) (fun mu => if mu = 0 then 0 else khat g.L gl.bc c mu / kspat g.L gl.bc c) D) ∧
    (gl.c1 = 0 → kspat g.L gl.bc c ≤ 1e-14 → propagator g gl c = some 0) := by
  refine ⟨fun h => ?_, fun h hk => ⟨_, coul_value g gl c hg h hn hk, coul_fixed g.L gl.bc c (lt_trans (by norm_num) hk)⟩, fun h hk => ?_⟩
  · unfold propagator
    simp only [hn, Bool.not_true, Bool.false_eq_true, if_false, hg, if_true, h, ne_eq, not_false_iff]
  · obtain ⟨h1, -⟩ := loop_ok g.L gl.bc c
    have hsp : [1, 2, 3].foldl (fun a i => a + (momLoop g.L gl.bc c).kt i * (momLoop g.L gl.bc c).kt i) (0 : ℝ) = kspat g.L gl.bc c := by
      rw [spat_fold, h1]; rfl
    have h0 : 0 ≤ kspat g.L gl.bc c := by unfold kspat; positivity
    unfold propagator
    simp only [hn, Bool.not_true, Bool.false_eq_true, if_false, hg, if_true, h, ne_eq, not_true]
    congr 1
    funext mu nu
    unfold cancelProp coulombProp
    rw [hsp]
    simp only [if_neg (show ¬(|kspat g.L gl.bc c| > 1e-14) from by rw [abs_of_nonneg h0]; linarith)]
    apply Complex.ext <;> simp

/-- C55: the zero modes, and the momenta which are zero up to the tolerance -/
theorem C55_zero_mode (g : Geo) (gl : GaugeInfo) (c : Coords) :
    (isNonZeroMode gl c = false ↔ match gl.zms with
      | .unnoAlemanna => ∀ mu, mu ≠ 0 → c mu = 0
      | .peciona => ∀ mu, c mu = 0
      | .only100 => c 1 + c 2 + c 3 ≠ 1) ∧
    (isNonZeroMode gl c = false → propagator g gl c = some 0) ∧
    (gl.gauge ≠ .coulomb → ksq g.L gl.bc c < 1e-14 → propagator g gl c = some 0) := by
  have key : isNonZeroMode gl c = false → propagator g gl c = some 0 := fun h => by
    unfold propagator
    simp only [h, Bool.not_false, if_true]
    rfl
  refine ⟨?_, key, fun hg hk => ?_⟩
  · unfold isNonZeroMode
    cases gl.zms
    · simp
      constructor
      · rintro ⟨⟨⟨a, b⟩, c⟩, d⟩ mu; fin_cases mu <;> assumption
      · exact fun h => ⟨⟨⟨h 0, h 1⟩, h 2⟩, h 3⟩
    · simp
      constructor
      · rintro ⟨⟨b, c⟩, d⟩ mu hm; fin_cases mu <;> first | assumption | exact absurd rfl hm
      · exact fun h => ⟨⟨h 1 (by decide), h 2 (by decide)⟩, h 3 (by decide)⟩
    · simp
  · by_cases hn : isNonZeroMode gl c = true
    · obtain ⟨h1, h2⟩ := loop_ok g.L gl.bc c
      have hsq : (momLoop g.L gl.bc c).kt2 = ksq g.L gl.bc c := by rw [h2.1, h1]; rfl
      have h0 : 0 ≤ ksq g.L gl.bc c := by unfold ksq; positivity
      unfold propagator
      simp only [hn, Bool.not_true, Bool.false_eq_true, if_false, hg]
      congr 1
      funext mu nu
      unfold cancelProp covariantProp
      simp only [hsq, if_neg (show ¬(|ksq g.L gl.bc c| ≥ 1e-14) from by rw [abs_of_nonneg h0]; linarith)]
      apply Complex.ext <;> simp
    · exact key (by simpa using hn)

theorem planar_pos (c1 : ℝ) (hc : c1 ≤ 0) (p : Dir → ℝ) (mu nu : Dir) : 0 ≤ planar c1 p mu nu := by
  rw [planar_eq]
  nlinarith [mul_nonneg (neg_nonneg.2 hc) (add_nonneg (sq_nonneg (2 * Real.sin (p mu / 2))) (sq_nonneg (2 * Real.sin (p nu / 2))))]

theorem kernel_psd (c1 : ℝ) (hc : c1 ≤ 0) (p : Dir → ℝ) (a : Dir → ℝ) : 0 ≤ a ⬝ᵥ kernel c1 p *ᵥ a := by
  rw [C55_kernel_action]
  refine Finset.sum_nonneg fun mu _ => Finset.sum_nonneg fun nu _ => ?_
  split
  · exact mul_nonneg (planar_pos c1 hc p mu nu) (sq_nonneg _)
  · exact le_refl _

theorem kernel_symm (c1 : ℝ) (L : Coords) (bc : Dir → ℝ) (c : Coords) : (kernel c1 (momV L bc c))ᵀ = kernel c1 (momV L bc c) := by
  rw [kernel_eq]; exact kernelOf_symm _ _ fun _ _ => by ring

theorem fixed_dkd {K : R4} {k w w' : Dir → ℝ} {D D' : R4} (h : FixedProp K k w D) (h' : FixedProp K k w' D') : D * (K * D') = D - vecMulVec (D *ᵥ w') k := by
  rw [h'.2.2, Matrix.mul_sub, Matrix.mul_one, Matrix.mul_vecMulVec]

/-- C55: the gauge condition and the kernel determine the propagator -/
theorem C55_unique {K : R4} {k w : Dir → ℝ} {D D' : R4} (hK : Kᵀ = K) (h : FixedProp K k w D) (h' : FixedProp K k w D') : D = D' := by
  have z : vecMulVec (0 : Dir → ℝ) k = 0 := by ext; simp [vecMulVec_apply]
  have e1 := fixed_dkd h h'
  have e2 := fixed_dkd h' h
  rw [h.2.1, z, sub_zero] at e1
  rw [h'.2.1, z, sub_zero] at e2
  have t := congrArg Matrix.transpose e2
  rw [Matrix.transpose_mul, Matrix.transpose_mul, hK, h.1, h'.1, Matrix.mul_assoc] at t
  exact e1.symm.trans t

theorem fixed_psd {c1 : ℝ} (hc : c1 ≤ 0) {p : Dir → ℝ} {k w : Dir → ℝ} {D : R4} (h : FixedProp (kernel c1 p) k w D) : D.PosSemidef := by
  have z : vecMulVec (0 : Dir → ℝ) k = 0 := by ext; simp [vecMulVec_apply]
  have e := fixed_dkd h h
  rw [h.2.1, z, sub_zero] at e
  refine Matrix.PosSemidef.of_dotProduct_mulVec_nonneg ?_ fun x => ?_
  · rw [Matrix.IsHermitian, Matrix.conjTranspose_eq_transpose_of_trivial]; exact h.1
  · have := kernel_psd c1 hc p (D *ᵥ x)
    rw [Matrix.mulVec_mulVec, ← Matrix.vecMul_transpose, h.1, ← Matrix.dotProduct_mulVec, Matrix.mulVec_mulVec, e] at this
    simpa using this

/-- C55: the propagator is a real positive semidefinite symmetric matrix, for all the gauges, prescriptions and momenta, when `c1<=0` (`c1=0` in the Coulomb gauge) -/
theorem C55_positive (g : Geo) (gl : GaugeInfo) (c : Coords) (hc : gl.c1 ≤ 0) (hg : gl.gauge = .coulomb → gl.c1 = 0) :
    ∃ D : R4, propagator g gl c = some (fun mu nu => ((D mu nu / g.glbVol : ℝ) : ℂ)) ∧ D.PosSemidef := by
  have zero : propagator g gl c = some 0 → ∃ D : R4, propagator g gl c = some (fun mu nu => ((D mu nu / g.glbVol : ℝ) : ℂ)) ∧ D.PosSemidef := fun h => by
    refine ⟨0, ?_, Matrix.PosSemidef.zero⟩
    rw [h]; congr 1; funext mu nu; simp
  by_cases hn : isNonZeroMode gl c = true
  · by_cases hco : gl.gauge = .coulomb
    · obtain ⟨-, a, b⟩ := C55_coulomb g gl c hco hn
      rcases le_or_gt (kspat g.L gl.bc c) 1e-14 with h | h
      · exact zero (b (hg hco) h)
      · obtain ⟨D, e, f⟩ := a (hg hco) h
        exact ⟨D, e, fixed_psd le_rfl f⟩
    · rcases lt_or_ge (ksq g.L gl.bc c) 1e-14 with h | h
      · exact zero ((C55_zero_mode g gl c).2.2 hco h)
      · cases hgg : gl.gauge
        · obtain ⟨D, e, f, -, f'⟩ := C55_feynman g gl c hgg hc hn h
          refine ⟨D, e, ?_⟩
          have := (fixed_psd hc f').add (Matrix.posSemidef_vecMulVec_self_star (khat g.L gl.bc c) |>.smul (show (0 : ℝ) ≤ 1 / ksq g.L gl.bc c ^ 2 by positivity))
          rwa [star_trivial, sub_add_cancel] at this
        · obtain ⟨D, e, f⟩ := C55_landau g gl c hgg hc hn h
          exact ⟨D, e, fixed_psd hc f⟩
        · exact absurd hgg hco
  · exact zero ((C55_zero_mode g gl c).2.1 (by simpa using hn))

theorem fixed_conserved {K : R4} {k w w' : Dir → ℝ} {D D' : R4} (hK : Kᵀ = K) (h : FixedProp K k w D) (h' : FixedProp K k w' D') (J J' : Dir → ℝ)
    (hJ : k ⬝ᵥ J = 0) (hJ' : k ⬝ᵥ J' = 0) : J' ⬝ᵥ D *ᵥ J = J' ⬝ᵥ D' *ᵥ J := by
  have e1 := congrArg (fun M => J' ⬝ᵥ M *ᵥ J) (fixed_dkd h h')
  have e2 := congrArg (fun M => J' ⬝ᵥ Mᵀ *ᵥ J) (fixed_dkd h' h)
  simp only [Matrix.transpose_mul, Matrix.transpose_sub, hK, h.1, h'.1, Matrix.sub_mulVec, dotProduct_sub, transpose_vecMulVec, vecMulVec_mulVec, hJ, op_smul_eq_smul, zero_smul,
    dotProduct_zero, sub_zero, dotProduct_smul, Matrix.mul_assoc] at e1 e2
  rw [dotProduct_comm J' k, hJ', smul_zero, sub_zero] at e2
  exact e1.symm.trans e2

/-- what the three gauges give for a momentum which is not zero -/
theorem fixed_any (g : Geo) (gl : GaugeInfo) (c : Coords) (hc : gl.c1 ≤ 0) (hn : isNonZeroMode gl c = true) (hk : 1e-14 ≤ ksq g.L gl.bc c)
    (hg : gl.gauge = .coulomb → gl.c1 = 0 ∧ 1e-14 < kspat g.L gl.bc c) :
    ∃ (D : R4) (w : Dir → ℝ) (a : ℝ), propagator g gl c = some (fun mu nu => (((D + a • vecMulVec (khat g.L gl.bc c) (khat g.L gl.bc c)) mu nu / g.glbVol : ℝ) : ℂ)) ∧
      FixedProp (kernel gl.c1 (momV g.L gl.bc c)) (khat g.L gl.bc c) w D := by
  cases hgg : gl.gauge
  · obtain ⟨D, e, -, -, f'⟩ := C55_feynman g gl c hgg hc hn hk
    exact ⟨_, _, _, by rw [e, sub_add_cancel], f'⟩
  · obtain ⟨D, e, f⟩ := C55_landau g gl c hgg hc hn hk
    exact ⟨D, _, 0, by rw [e, zero_smul, add_zero], f⟩
  · obtain ⟨h1, h2⟩ := hg hgg
    obtain ⟨D, e, f⟩ := (C55_coulomb g gl c hgg hn).2.1 h1 h2
    exact ⟨D, _, 0, by rw [e, zero_smul, add_zero], by rw [h1]; exact f⟩

/-- C55: between conserved currents the propagator does not depend on the gauge -/
theorem C55_gauge_independent (g : Geo) (gl gl' : GaugeInfo) (c : Coords) (h1 : gl'.c1 = gl.c1) (h2 : gl'.bc = gl.bc) (hc : gl.c1 ≤ 0)
    (hn : isNonZeroMode gl c = true) (hn' : isNonZeroMode gl' c = true) (hk : 1e-14 ≤ ksq g.L gl.bc c)
    (hg : gl.gauge = .coulomb ∨ gl'.gauge = .coulomb → gl.c1 = 0 ∧ 1e-14 < kspat g.L gl.bc c) (J J' : Dir → ℝ)
    (hJ : khat g.L gl.bc c ⬝ᵥ J = 0) (hJ' : khat g.L gl.bc c ⬝ᵥ J' = 0) :
    ∃ D D' : R4, propagator g gl c = some (fun mu nu => ((D mu nu / g.glbVol : ℝ) : ℂ)) ∧ propagator g gl' c = some (fun mu nu => ((D' mu nu / g.glbVol : ℝ) : ℂ)) ∧
      J' ⬝ᵥ D *ᵥ J = J' ⬝ᵥ D' *ᵥ J := by
  obtain ⟨D, w, a, e, f⟩ := fixed_any g gl c hc hn hk fun h => hg (.inl h)
  obtain ⟨D', w', a', e', f'⟩ := fixed_any g gl' c (by rw [h1]; exact hc) hn' (by rw [h2]; exact hk) fun h => by rw [h1, h2]; exact hg (.inr h)
  rw [h1, h2] at f'
  rw [h2] at e'
  refine ⟨_, _, e, e', ?_⟩
  simp only [Matrix.add_mulVec, Matrix.smul_mulVec, vecMulVec_mulVec, hJ, op_smul_eq_smul, zero_smul, smul_zero, add_zero]
  exact fixed_conserved (kernel_symm _ _ _ _) f f' J J' hJ hJ'

/-- spatial squared lattice momentum of the momentum `p` -/
noncomputable def spatOf (p : Dir → ℝ) : ℝ := (2 * Real.sin (p 1 / 2)) ^ 2 + (2 * Real.sin (p 2 / 2)) ^ 2 + (2 * Real.sin (p 3 / 2)) ^ 2

/-- C55: the energy of a gluon: the combination with the virtuality of the energy at which the squared lattice momentum vanishes at imaginary
time component -/
theorem C55_energy (L : Coords) (gl : GaugeInfo) (virt : ℝ) (imom : Nat) :
    (gl.c1 ≠ 0 → gluon_energy L gl virt imom = none) ∧
    (gl.c1 = 0 → ∃ E0 : ℝ, 0 ≤ E0 ∧ gluon_energy L gl virt imom = some (Real.sqrt (E0 ^ 2 + virt ^ 2)) ∧
      ∀ e : ℝ, 0 ≤ e → ((2 * Complex.sin (I * e / 2)) ^ 2 + ((spatOf (fun mu => lattMom (glbCoordOfGlblx L imom mu) (gl.bc mu) (L mu)) : ℝ) : ℂ) = 0 ↔ e = E0)) := by
  refine ⟨fun h => by unfold gluon_energy; rw [if_pos h], fun h => ?_⟩
  have hp : [1, 2, 3].foldl (fun a mu => a + (2 * Real.sin (momentum L gl.bc imom mu / 2)) ^ 2) (0 : ℝ) = spatOf (fun mu => lattMom (glbCoordOfGlblx L imom mu) (gl.bc mu) (L mu)) := by
    simp only [List.foldl_cons, List.foldl_nil, zero_add]
    rfl
  have h0 : 0 ≤ spatOf (fun mu => lattMom (glbCoordOfGlblx L imom mu) (gl.bc mu) (L mu)) := by unfold spatOf; positivity
  generalize spatOf (fun mu => lattMom (glbCoordOfGlblx L imom mu) (gl.bc mu) (L mu)) = s at *
  refine ⟨2 * Real.arsinh (Real.sqrt s / 2), ?_, ?_, fun e he => ?_⟩
  · have := Real.arsinh_nonneg_iff.2 (show 0 ≤ Real.sqrt s / 2 by positivity)
    linarith
  · unfold gluon_energy
    rw [if_neg (by simp [h]), hp]
  · have hs : (2 * Complex.sin (I * e / 2)) ^ 2 = ((-(2 * Real.sinh (e / 2)) ^ 2 : ℝ) : ℂ) := by
      rw [show I * (e : ℂ) / 2 = ((e / 2 : ℝ) : ℂ) * I from by push_cast; ring, Complex.sin_mul_I, mul_pow, mul_pow, I_sq]
      push_cast; ring
    rw [hs, ← Complex.ofReal_add, Complex.ofReal_eq_zero]
    have h2 : 0 ≤ 2 * Real.sinh (e / 2) := by have := Real.sinh_nonneg_iff.2 (show 0 ≤ e / 2 by linarith); linarith
    constructor
    · intro h
      have : (2 * Real.sinh (e / 2)) ^ 2 = s := by linarith
      rw [← this, Real.sqrt_sq h2, mul_div_cancel_left₀ _ (by norm_num), Real.arsinh_sinh]; ring
    · intro h
      rw [h, mul_div_cancel_left₀ _ (by norm_num), Real.sinh_arsinh, mul_div_cancel₀ _ (by norm_num), Real.sq_sqrt h0]; ring

end Nissa.Phot
