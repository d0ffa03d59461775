import Verif.FreeTheory.PropsQuark2

/-! # C54: wave functions -/

set_option linter.all false

namespace Nissa.Free
open Nissa.Lx Nissa.Sten Nissa.Gamma Nissa.Wilson Nissa.StD Matrix Complex

theorem W_sq : W * W = 1 / 2 := by
  unfold W
  rw [div_mul_div_comm, Real.mul_self_sqrt (by norm_num)]; norm_num

/-- particles: solutions in terms of the tilded operator -/
theorem wave_norm_p (c σ y : ℝ) (q : Dir → ℝ) (s t : Fin 2) :
    star (cl c (fun mu => if mu = 0 then (σ : ℂ) else I * (q mu : ℝ)) (I * y) *ᵥ ompg0_eig 1 s) ⬝ᵥ
      (cl c (fun mu => if mu = 0 then (σ : ℂ) else I * (q mu : ℝ)) (I * y) *ᵥ ompg0_eig 1 t) =
    if s = t then (((c + σ) ^ 2 + q 1 ^ 2 + q 2 ^ 2 + q 3 ^ 2 + y ^ 2 : ℝ) : ℂ) else 0 := by
  have hW : (W : ℂ) * W = 1 / 2 := by rw [← Complex.ofReal_mul, W_sq]; norm_num
  have hW2 : (W : ℂ) ^ 2 = 1 / 2 := by rw [sq, hW]
  have hII : ∀ z : ℂ, I * (I * z) = -z := fun z => by rw [← mul_assoc, I_mul_I, neg_one_mul]
  have h0 : (⟨0, 0⟩ : ℂ) = 0 := rfl
  have h1 : (⟨W, 0⟩ : ℂ) = (W : ℂ) := rfl
  have h2 : (⟨-W, 0⟩ : ℂ) = -(W : ℂ) := by apply Complex.ext <;> simp
  rw [cl_explicit]
  fin_cases s <;> fin_cases t <;>
  · simp [ompg0_eig, Matrix.mulVec, dotProduct, Fin.sum_univ_four, h0, h1, h2]
    simp only [hII]
    ring_nf
    try simp only [hW2, I_sq]
    try ring_nf


/-- antiparticles -/
theorem wave_norm_a (c σ y : ℝ) (q : Dir → ℝ) (s t : Fin 2) :
    star (cl c (fun mu => if mu = 0 then (-σ : ℂ) else I * (q mu : ℝ)) (I * y) *ᵥ ompg0_eig 0 s) ⬝ᵥ
      (cl c (fun mu => if mu = 0 then (-σ : ℂ) else I * (q mu : ℝ)) (I * y) *ᵥ ompg0_eig 0 t) =
    if s = t then (((c + σ) ^ 2 + q 1 ^ 2 + q 2 ^ 2 + q 3 ^ 2 + y ^ 2 : ℝ) : ℂ) else 0 := by
  have hW : (W : ℂ) * W = 1 / 2 := by rw [← Complex.ofReal_mul, W_sq]; norm_num
  have hW2 : (W : ℂ) ^ 2 = 1 / 2 := by rw [sq, hW]
  have hII : ∀ z : ℂ, I * (I * z) = -z := fun z => by rw [← mul_assoc, I_mul_I, neg_one_mul]
  have h0 : (⟨0, 0⟩ : ℂ) = 0 := rfl
  have h1 : (⟨W, 0⟩ : ℂ) = (W : ℂ) := rfl
  have h2 : (⟨-W, 0⟩ : ℂ) = -(W : ℂ) := by apply Complex.ext <;> simp
  rw [cl_explicit]
  fin_cases s <;> fin_cases t <;>
  · simp [ompg0_eig, Matrix.mulVec, dotProduct, Fin.sum_univ_four, h0, h1, h2]
    simp only [hII]
    ring_nf
    try simp only [hW2, I_sq]
    try ring_nf

/-- the two spinors are a basis of the eigenspace of `gamma0` -/
theorem eig_complete : (∑ s, vecMulVec (ompg0_eig 1 s) (star (ompg0_eig 1 s)) : M4) = (1 / 2 : ℂ) • (1 + γdir 0) ∧
    (∑ s, vecMulVec (ompg0_eig 0 s) (star (ompg0_eig 0 s)) : M4) = (1 / 2 : ℂ) • (1 - γdir 0) := by
  have hW : (W : ℂ) * W = 2⁻¹ := by rw [← Complex.ofReal_mul, W_sq]; norm_num
  have h0 : (⟨0, 0⟩ : ℂ) = 0 := rfl
  have h1 : (⟨W, 0⟩ : ℂ) = (W : ℂ) := rfl
  have h2 : (⟨-W, 0⟩ : ℂ) = -(W : ℂ) := by apply Complex.ext <;> simp
  rw [g0]
  constructor
  · ext i j
    fin_cases i <;> fin_cases j <;> simp [ompg0_eig, Fin.sum_univ_two, vecMulVec_apply, Matrix.sum_apply, h0, h1, h2, hW]
  · ext i j
    fin_cases i <;> fin_cases j <;> simp [ompg0_eig, Fin.sum_univ_two, vecMulVec_apply, Matrix.sum_apply, h0, h1, h2, hW]

theorem cl_dag (c σ y : ℝ) (q : Dir → ℝ) : (cl c (fun mu => if mu = 0 then (σ : ℂ) else I * (q mu : ℝ)) (I * y))ᴴ =
    cl c (fun mu => if mu = 0 then (σ : ℂ) else -(I * (q mu : ℝ))) (-(I * y)) := by
  rw [cl_explicit, cl_explicit]
  ext i j
  fin_cases i <;> fin_cases j <;> simp [Matrix.conjTranspose_apply]
  all_goals ring

theorem g0_cl (c : ℂ) (x : Dir → ℂ) (y : ℂ) : γdir 0 * cl c x y * γdir 0 = cl c (fun mu => if mu = 0 then x mu else -x mu) (-y) := by
  rw [cl_explicit, cl_explicit, g0]
  ext i j
  fin_cases i <;> fin_cases j <;> simp [Matrix.mul_apply, Fin.sum_univ_four]
  all_goals ring

theorem g0_anti (c : ℂ) (x : Dir → ℂ) (y : ℂ) : cl c x y * γdir 0 = (2 * c) • γdir 0 + (2 * x 0) • 1 - γdir 0 * cl c x y := by
  rw [cl_explicit, g0]
  ext i j
  fin_cases i <;> fin_cases j <;> simp [Matrix.mul_apply, Fin.sum_univ_four]
  all_goals ring

theorem cl_tilde (c : ℂ) (x : Dir → ℂ) (y : ℂ) : cl c (-x) (-y) = (2 * c) • 1 - cl c x y := by
  rw [cl_explicit, cl_explicit]
  ext i j
  fin_cases i <;> fin_cases j <;> simp
  all_goals ring

/-- for a null operator: `D (1 + e gamma0) gamma0 D = 2 (e x0 + c) D` hence the sum on the spins -/
theorem null_sq (c : ℂ) (x : Dir → ℂ) (y : ℂ) (h : cl c x y * cl c (-x) (-y) = 0) : cl c x y * cl c x y = (2 * c) • cl c x y := by
  rw [cl_tilde, Matrix.mul_sub, Matrix.mul_smul, Matrix.mul_one] at h
  exact (sub_eq_zero.1 h).symm

theorem null_g0 (c : ℂ) (x : Dir → ℂ) (y : ℂ) (h : cl c x y * cl c (-x) (-y) = 0) : cl c x y * γdir 0 * cl c x y = (2 * x 0) • cl c x y := by
  rw [g0_anti, Matrix.sub_mul, Matrix.add_mul, Matrix.mul_assoc, null_sq c x y h, Matrix.smul_mul, Matrix.smul_mul, Matrix.one_mul, Matrix.mul_smul]
  abel

theorem g0g0 : γdir 0 * γdir 0 = 1 := γsq 0

theorem sum_wave (D P : M4) (f : Fin 2 → Fin 4 → ℂ) : ∑ s, vecMulVec (D *ᵥ f s) (star (D *ᵥ f s)) = D * (∑ s, vecMulVec (f s) (star (f s))) * Dᴴ := by
  rw [Finset.mul_sum, Finset.sum_mul]
  refine Finset.sum_congr rfl fun s _ => ?_
  rw [Matrix.star_mulVec, Matrix.mul_vecMulVec, Matrix.vecMulVec_mul]


theorem spin_prod (b : SpinSpin ℂ) (c : Fin 4 → ℂ) : spinspin_prod_spin b c = (b : M4) *ᵥ c := by
  funext i; simp [spinspin_prod_spin, foldl4, Matrix.mulVec, dotProduct, Fin.sum_univ_four]

theorem scale_eq (f : ℝ) (v : Fin 4 → ℂ) : (fun id => (⟨(v id).re * f, (v id).im * f⟩ : ℂ)) = (f : ℂ) • v := by
  funext i; apply Complex.ext <;> simp [mul_comm]

theorem vec_scale (f : ℝ) (u : Fin 4 → ℂ) : vecMulVec ((f : ℂ) • u) (star ((f : ℂ) • u)) = ((f * f : ℝ) : ℂ) • vecMulVec u (star u) := by
  ext i j; simp [vecMulVec_apply]; ring

theorem dot_scale (f : ℝ) (u v : Fin 4 → ℂ) : star ((f : ℂ) • u) ⬝ᵥ ((f : ℂ) • v) = ((f * f : ℝ) : ℂ) * (star u ⬝ᵥ v) := by
  simp [dotProduct, Finset.mul_sum]
  refine Finset.sum_congr rfl fun i _ => by ring

/-- the operator of energy `e` -/
theorem quarkD_shell (L : Coords) (qu : Quark) (imom : Nat) (base : Base) (esign : Int) (hs : esign = -1 ∨ esign = 1) (E : ℝ) (p : Dir → ℝ) (M : ℝ)
    (hE : tm_quark_energy L qu imom = E) (hp : momI L qu imom = p) (hM : M = spatialM qu p + (1 - Real.cosh E)) :
    quarkD qu base (onShell p (esign * E)) = cl (coef0 base M qu.mass : ℝ)
      (fun mu => if mu = 0 then ((-(esign * Real.sinh E) : ℝ) : ℂ) else I * ((Real.sin (p mu) : ℝ) : ℂ)) (I * ((coef5 base (tau3 qu.r) M qu.mass : ℝ) : ℂ)) ∧
    quarkD (flip qu) base (-onShell p (esign * E)) = cl (coef0 base M qu.mass : ℝ)
      (fun mu => if mu = 0 then (((esign * Real.sinh E) : ℝ) : ℂ) else I * ((-Real.sin (p mu) : ℝ) : ℂ)) (I * ((-coef5 base (tau3 qu.r) M qu.mass : ℝ) : ℂ)) := by
  obtain ⟨-, h⟩ := C54_on_shell L qu imom esign base
  obtain ⟨h1, h2, -⟩ := h hs
  have e1 := onShell_cl L qu imom false esign base hs E p M 1 hE hp hM rfl
  have e2 := onShell_cl L qu imom true esign base hs E p M (-1) hE hp hM rfl
  rw [e1, hE, hp] at h1
  rw [e2, hE, hp] at h2
  have f1 := congrArg Prod.fst (Option.some.inj h1)
  have f2 := congrArg Prod.fst (Option.some.inj h2)
  dsimp only at f1 f2
  rw [← f1, ← f2]
  constructor
  · simp only [one_mul, neg_one_mul, neg_mul]
  · simp only [one_mul, neg_one_mul, neg_mul, neg_neg]

/-- the mass shell -/
theorem mass_shell (L : Coords) (qu : Quark) (imom : Nat) (base : Base) (E : ℝ) (p : Dir → ℝ) (M : ℝ)
    (hE : tm_quark_energy L qu imom = E) (hp : momI L qu imom = p) (hM : M = spatialM qu p + (1 - Real.cosh E)) (hA : -1 < spatialM qu p) :
    M ^ 2 + qu.mass ^ 2 + spatialS p = Real.sinh E ^ 2 ∧ 0 ≤ Real.sinh E := by
  have hA' : -1 < spatialM qu (momI L qu imom) := by rw [hp]; exact hA
  have h := C54_energy L qu imom base hA'
  rw [hE, hp] at h
  have k := (h.2 E h.1).2 rfl
  rw [quarkD_unit, wm_onShell, sin_onShell, not_not, ← hM] at k
  rw [show ∀ a b c : ℝ, (a : ℂ) ^ 2 + (b : ℂ) ^ 2 + (c : ℂ) = ((a ^ 2 + b ^ 2 + c : ℝ) : ℂ) from fun a b c => by push_cast; rfl] at k
  rw [Complex.ofReal_eq_zero] at k
  exact ⟨by linarith, Real.sinh_nonneg_iff.2 h.1⟩

/-- the wave functions in both bases; in the Wilson one the normalisation is the one of the mass, not of the coefficient of the identity -/
theorem wave_general (L : Coords) (qu : Quark) (imom : Nat) (base : Base) (E : ℝ) (p : Dir → ℝ) (M c0 : ℝ)
    (hE : tm_quark_energy L qu imom = E) (hp : momI L qu imom = p) (hM : M = spatialM qu p + (1 - Real.cosh E)) (hA : -1 < spatialM qu p)
    (hc : c0 = coef0 base M qu.mass) (hpos : 0 < qu.mass + Real.sinh E) :
    (∃ u : Fin 2 → Fin 4 → ℂ, (∀ s, twisted_wavefunction L qu imom 0 s base = some (u s)) ∧
      (∀ s, quarkD qu base (onShell p E) *ᵥ u s = 0) ∧
      (∀ s t, star (u s) ⬝ᵥ u t = if s = t then ((2 * Real.sinh E * ((c0 + Real.sinh E) / (qu.mass + Real.sinh E)) : ℝ) : ℂ) else 0) ∧
      (∑ s, vecMulVec (u s) (star (u s))) * γdir 0 = ((c0 + Real.sinh E) / (qu.mass + Real.sinh E) : ℝ) • quarkD (flip qu) base (-onShell p E)) ∧
    (∃ v : Fin 2 → Fin 4 → ℂ, (∀ s, twisted_wavefunction L qu imom 1 s base = some (v s)) ∧
      (∀ s, quarkD qu base (onShell p (-E)) *ᵥ v s = 0) ∧
      (∀ s t, star (v s) ⬝ᵥ v t = if s = t then ((2 * Real.sinh E * ((c0 + Real.sinh E) / (qu.mass + Real.sinh E)) : ℝ) : ℂ) else 0) ∧
      (∑ s, vecMulVec (v s) (star (v s))) * γdir 0 = -(((c0 + Real.sinh E) / (qu.mass + Real.sinh E) : ℝ) • quarkD (flip qu) base (-onShell p (-E)))) := by
  obtain ⟨hshell, hσ0⟩ := mass_shell L qu imom base E p M hE hp hM hA
  obtain ⟨d1, d2⟩ := quarkD_shell L qu imom base 1 (.inr rfl) E p M hE hp hM
  obtain ⟨d3, d4⟩ := quarkD_shell L qu imom base (-1) (.inl rfl) E p M hE hp hM
  have o1 := onShell_cl L qu imom true 1 base (.inr rfl) E p M (-1) hE hp hM rfl
  have o2 := onShell_cl L qu imom false 1 base (.inr rfl) E p M 1 hE hp hM rfl
  rw [← hc] at d1 d2 d3 d4 o1 o2
  have hsq : c0 ^ 2 + coef5 base (tau3 qu.r) M qu.mass ^ 2 = M ^ 2 + qu.mass ^ 2 := by rw [hc]; exact coef_sq base _ M qu.mass (tau_sq _)
  generalize coef5 base (tau3 qu.r) M qu.mass = y at *
  obtain ⟨σ, hσ⟩ : ∃ σ, Real.sinh E = σ := ⟨_, rfl⟩
  rw [hσ] at d1 d2 d3 d4 o1 o2 hpos hshell hσ0 ⊢
  simp only [Int.cast_one, one_mul, Int.cast_neg, neg_mul, neg_neg, neg_one_mul, mul_neg] at d1 d2 d3 d4 o1 o2
  have hnull : ∀ (σ' y' : ℝ) (q : Dir → ℝ), σ' ^ 2 = σ ^ 2 → y' ^ 2 = y ^ 2 → (∀ mu, q mu ^ 2 = Real.sin (p mu) ^ 2) →
      cl c0 (fun mu => if mu = 0 then (σ' : ℂ) else I * (q mu : ℝ)) (I * (y' : ℝ)) *
        cl c0 (-(fun mu => if mu = 0 then (σ' : ℂ) else I * (q mu : ℝ))) (-(I * (y' : ℝ))) = 0 := by
    intro σ' y' q h1 h2 h3
    rw [cl_mul, Fin.sum_univ_four]
    simp only [if_true, Fin.isValue, one_ne_zero, if_false, show (2 : Dir) ≠ 0 from by decide, show (3 : Dir) ≠ 0 from by decide, mul_pow, I_sq]
    rw [show (c0 : ℂ) ^ 2 - ((σ' : ℂ) ^ 2 + -1 * (q 1 : ℂ) ^ 2 + -1 * (q 2 : ℂ) ^ 2 + -1 * (q 3 : ℂ) ^ 2) - -1 * (y' : ℂ) ^ 2 =
      ((c0 ^ 2 - (σ' ^ 2 - q 1 ^ 2 - q 2 ^ 2 - q 3 ^ 2) + y' ^ 2 : ℝ) : ℂ) from by push_cast; ring]
    rw [h1, h2, h3, h3, h3]
    unfold spatialS at hshell
    rw [show (c0 ^ 2 - (σ ^ 2 - Real.sin (p 1) ^ 2 - Real.sin (p 2) ^ 2 - Real.sin (p 3) ^ 2) + y ^ 2 : ℝ) = 0 from by linarith]
    simp
  set fact : ℝ := 1 / Real.sqrt (qu.mass + σ) with hfact
  have hff : fact * fact = 1 / (qu.mass + σ) := by rw [hfact, div_mul_div_comm, Real.mul_self_sqrt hpos.le, one_mul]
  have hK : ∀ q : Dir → ℝ, ∀ y' : ℝ, (∀ mu, q mu ^ 2 = Real.sin (p mu) ^ 2) → y' ^ 2 = y ^ 2 → (c0 + σ) ^ 2 + q 1 ^ 2 + q 2 ^ 2 + q 3 ^ 2 + y' ^ 2 = 2 * σ * (c0 + σ) := by
    intro q y' h3 h2
    rw [h3, h3, h3, h2]
    unfold spatialS at hshell
    linarith
  have hKK : fact * fact * (2 * σ * (c0 + σ)) = 2 * σ * ((c0 + σ) / (qu.mass + σ)) := by rw [hff]; field_simp
  constructor
  · set D : M4 := cl c0 (fun mu => if mu = 0 then (σ : ℂ) else I * ((-Real.sin (p mu) : ℝ) : ℂ)) (I * ((-y : ℝ) : ℂ)) with hD
    have hN := hnull σ (-y) (fun mu => -Real.sin (p mu)) rfl (by ring) (fun mu => by ring)
    refine ⟨fun s => (fact : ℂ) • (D *ᵥ ompg0_eig 1 s), fun s => ?_, fun s => ?_, fun s t => ?_, ?_⟩
    · unfold twisted_wavefunction
      simp only [Matrix.cons_val_zero]
      rw [o1]
      simp only [Option.map_some, spin_prod, scale_eq, hσ]
      rw [(C30_dense_ops (baseGamma 0) 0 _ 0).2.2.2.1, show dense (baseGamma 0) = (1 : M4) from C30_products.1, Matrix.one_mulVec]
      rfl
    · rw [Matrix.mulVec_smul, Matrix.mulVec_mulVec, d1]
      have h' := cl_mul' c0 (fun mu => if mu = 0 then (σ : ℂ) else I * ((-Real.sin (p mu) : ℝ) : ℂ)) (I * ((-y : ℝ) : ℂ))
      have h'' := cl_mul c0 (fun mu => if mu = 0 then (σ : ℂ) else I * ((-Real.sin (p mu) : ℝ) : ℂ)) (I * ((-y : ℝ) : ℂ))
      rw [← h'', hN] at h'
      rw [show cl c0 (fun mu => if mu = 0 then ((-σ : ℝ) : ℂ) else I * ((Real.sin (p mu) : ℝ) : ℂ)) (I * ((y : ℝ) : ℂ)) =
        cl c0 (-fun mu => if mu = 0 then (σ : ℂ) else I * ((-Real.sin (p mu) : ℝ) : ℂ)) (-(I * ((-y : ℝ) : ℂ))) from by
          congr 1
          · funext mu; simp only [Pi.neg_apply]; split <;> push_cast <;> ring
          · push_cast; ring]
      rw [hD, h', Matrix.zero_mulVec, smul_zero]
    · rw [dot_scale, wave_norm_p c0 σ (-y) (fun mu => -Real.sin (p mu)) s t]
      split
      · rw [← Complex.ofReal_mul, hK (fun mu => -Real.sin (p mu)) (-y) (fun mu => by ring) (by ring), hKK]
      · rw [mul_zero]
    · simp only [vec_scale]
      rw [← Finset.smul_sum, sum_wave D 0, eig_complete.1, d2]
      rw [hD, cl_dag c0 σ (-y) (fun mu => -Real.sin (p mu)), ← hD, Matrix.smul_mul]
      have e : cl c0 (fun mu => if mu = 0 then (σ : ℂ) else -(I * ((-Real.sin (p mu) : ℝ) : ℂ))) (-(I * ((-y : ℝ) : ℂ))) * γdir 0 = γdir 0 * D := by
        have := g0_cl c0 (fun mu => if mu = 0 then (σ : ℂ) else I * ((-Real.sin (p mu) : ℝ) : ℂ)) (I * ((-y : ℝ) : ℂ))
        rw [← hD] at this
        rw [show (fun mu : Dir => if mu = 0 then (σ : ℂ) else -(I * ((-Real.sin (p mu) : ℝ) : ℂ))) =
          fun mu => if mu = 0 then (if mu = 0 then (σ : ℂ) else I * ((-Real.sin (p mu) : ℝ) : ℂ)) else -(if mu = 0 then (σ : ℂ) else I * ((-Real.sin (p mu) : ℝ) : ℂ)) from by
            funext mu; by_cases h : mu = 0 <;> simp [h], ← this, Matrix.mul_assoc, Matrix.mul_assoc, g0g0, Matrix.mul_one]
      rw [Matrix.mul_assoc, e, Matrix.mul_smul, Matrix.smul_mul, Matrix.mul_add, Matrix.mul_one, Matrix.add_mul, ← Matrix.mul_assoc, ← Matrix.mul_assoc, Matrix.mul_assoc D (γdir 0) (γdir 0), g0g0, Matrix.mul_one]
      rw [null_g0 _ _ _ hN, null_sq _ _ _ hN]
      simp only [if_true]
      rw [← add_smul, smul_smul, smul_smul, hff]
      rw [← Complex.coe_smul]
      congr 1
      push_cast
      field_simp
      ring
  · set D : M4 := cl c0 (fun mu => if mu = 0 then ((-σ : ℝ) : ℂ) else I * ((Real.sin (p mu) : ℝ) : ℂ)) (I * ((y : ℝ) : ℂ)) with hD
    have hN := hnull (-σ) y (fun mu => Real.sin (p mu)) (by ring) rfl (fun mu => rfl)
    have hg : γdir 0 * D * γdir 0 = cl c0 (fun mu => if mu = 0 then ((-σ : ℝ) : ℂ) else I * ((-Real.sin (p mu) : ℝ) : ℂ)) (I * ((-y : ℝ) : ℂ)) := by
      rw [hD, g0_cl]
      congr 1
      · funext mu; by_cases h : mu = 0 <;> simp [h]
      · push_cast; ring
    refine ⟨fun s => γdir 0 *ᵥ ((fact : ℂ) • (D *ᵥ ompg0_eig 0 s)), fun s => ?_, fun s => ?_, fun s t => ?_, ?_⟩
    · unfold twisted_wavefunction
      simp only [Matrix.cons_val_one, Matrix.cons_val_zero, Matrix.cons_val_fin_one]
      rw [o2]
      simp only [Option.map_some, spin_prod, scale_eq, hσ]
      rw [(C30_dense_ops (baseGamma _) 0 _ 0).2.2.2.1]
      rfl
    · have e : quarkD qu base (onShell p (-E)) = γdir 0 * cl c0 (-fun mu => if mu = 0 then ((-σ : ℝ) : ℂ) else I * ((Real.sin (p mu) : ℝ) : ℂ)) (-(I * ((y : ℝ) : ℂ))) * γdir 0 := by
        rw [d3, g0_cl]
        congr 1
        · funext mu; by_cases h : mu = 0 <;> simp [h]
        · ring
      have h' := cl_mul' c0 (fun mu => if mu = 0 then ((-σ : ℝ) : ℂ) else I * ((Real.sin (p mu) : ℝ) : ℂ)) (I * ((y : ℝ) : ℂ))
      have h'' := cl_mul c0 (fun mu => if mu = 0 then ((-σ : ℝ) : ℂ) else I * ((Real.sin (p mu) : ℝ) : ℂ)) (I * ((y : ℝ) : ℂ))
      rw [← h'', hN, ← hD] at h'
      beta_reduce
      rw [e, Matrix.mulVec_smul, Matrix.mulVec_smul, Matrix.mulVec_mulVec, Matrix.mulVec_mulVec, Matrix.mul_assoc, Matrix.mul_assoc, ← Matrix.mul_assoc (γdir 0) (γdir 0),
        g0g0, Matrix.one_mul, Matrix.mul_assoc, h', Matrix.mul_zero, Matrix.zero_mulVec, smul_zero]
    · have hu : ∀ a b : Fin 4 → ℂ, star (γdir 0 *ᵥ a) ⬝ᵥ (γdir 0 *ᵥ b) = star a ⬝ᵥ b := fun a b => by
        rw [Matrix.star_mulVec, C30_hermitian.1, Matrix.dotProduct_mulVec, Matrix.vecMul_vecMul, g0g0, Matrix.vecMul_one]
      rw [hu, dot_scale, hD]
      have := wave_norm_a c0 σ y (fun mu => Real.sin (p mu)) s t
      rw [Complex.ofReal_neg, this]
      split
      · rw [← Complex.ofReal_mul, hK (fun mu => Real.sin (p mu)) y (fun mu => rfl) rfl, hKK]
      · rw [mul_zero]
    · have hv : ∀ s, vecMulVec (γdir 0 *ᵥ ((fact : ℂ) • (D *ᵥ ompg0_eig 0 s))) (star (γdir 0 *ᵥ ((fact : ℂ) • (D *ᵥ ompg0_eig 0 s)))) =
          γdir 0 * (((fact * fact : ℝ) : ℂ) • vecMulVec (D *ᵥ ompg0_eig 0 s) (star (D *ᵥ ompg0_eig 0 s))) * γdir 0 := fun s => by
        rw [← vec_scale, Matrix.star_mulVec, C30_hermitian.1, Matrix.mul_vecMulVec, Matrix.vecMulVec_mul]
      simp only [hv]
      rw [← Finset.sum_mul, ← Finset.mul_sum, Matrix.mul_assoc, g0g0, Matrix.mul_one, ← Finset.smul_sum, sum_wave D 0, eig_complete.2, d4, ← hg]
      have hdag : Dᴴ = γdir 0 * D * γdir 0 := by
        rw [hg, hD, cl_dag c0 (-σ) y (fun mu => Real.sin (p mu))]
        congr 1
        · funext mu; by_cases h : mu = 0 <;> simp [h]
        · push_cast; ring
      rw [hdag]
      have e : D * ((1 / 2 : ℂ) • (1 - γdir 0)) * (γdir 0 * D * γdir 0) = (1 / 2 : ℂ) • ((D * γdir 0 * D - D * D) * γdir 0) := by
        rw [Matrix.mul_smul, Matrix.smul_mul, Matrix.mul_sub, Matrix.mul_one, Matrix.sub_mul, Matrix.sub_mul]
        congr 2
        · simp only [Matrix.mul_assoc]
        · rw [Matrix.mul_assoc D (γdir 0), ← Matrix.mul_assoc (γdir 0) (γdir 0 * D), ← Matrix.mul_assoc (γdir 0) (γdir 0), g0g0, Matrix.one_mul, Matrix.mul_assoc]
      rw [e, null_g0 _ _ _ hN, null_sq _ _ _ hN]
      simp only [if_true]
      rw [← hD, ← sub_smul, Matrix.smul_mul, smul_smul, smul_smul, Matrix.mul_smul, hff]
      rw [← Complex.coe_smul, ← neg_smul, Matrix.mul_assoc]
      congr 1
      push_cast
      field_simp
      ring


/-- C54: in the physical basis the wave functions of particles and antiparticles solve the lattice Dirac equation with energy plus and minus the
quark energy, are orthogonal with squared norm `2 sinh E`, and their spin sums are the on-shell operators of the other flavour and opposite
momentum -/
theorem C54_wavefunctions (L : Coords) (qu : Quark) (imom : Nat) (hA : -1 < spatialM qu (momI L qu imom))
    (hpos : 0 < qu.mass + Real.sinh (tm_quark_energy L qu imom)) :
    let E := tm_quark_energy L qu imom
    let p := momI L qu imom
    (∃ u : Fin 2 → Fin 4 → ℂ, (∀ s, twisted_wavefunction L qu imom 0 s .maxTwist = some (u s)) ∧
      (∀ s, quarkD qu .maxTwist (onShell p E) *ᵥ u s = 0) ∧
      (∀ s t, star (u s) ⬝ᵥ u t = if s = t then ((2 * Real.sinh E : ℝ) : ℂ) else 0) ∧
      (∑ s, vecMulVec (u s) (star (u s))) * γdir 0 = quarkD (flip qu) .maxTwist (-onShell p E)) ∧
    (∃ v : Fin 2 → Fin 4 → ℂ, (∀ s, twisted_wavefunction L qu imom 1 s .maxTwist = some (v s)) ∧
      (∀ s, quarkD qu .maxTwist (onShell p (-E)) *ᵥ v s = 0) ∧
      (∀ s t, star (v s) ⬝ᵥ v t = if s = t then ((2 * Real.sinh E : ℝ) : ℂ) else 0) ∧
      (∑ s, vecMulVec (v s) (star (v s))) * γdir 0 = -quarkD (flip qu) .maxTwist (-onShell p (-E))) := by
  intro E p
  have h := wave_general L qu imom .maxTwist E p _ qu.mass rfl rfl rfl hA rfl hpos
  rw [div_self hpos.ne', mul_one, one_smul, one_smul] at h
  exact h

/-- C54: in the Wilson basis the wave functions solve the Dirac equation but their norm is not `2 sinh E`, as the normalisation
uses the twisted mass also there -/
theorem C54_violated_wilson_norm : ∃ (L : Coords) (qu : Quark) (imom : Nat), -1 < spatialM qu (momI L qu imom) ∧ 0 < qu.mass + Real.sinh (tm_quark_energy L qu imom) ∧
    ∃ u : Fin 4 → ℂ, twisted_wavefunction L qu imom 0 0 .wilson = some u ∧
      quarkD qu .wilson (onShell (momI L qu imom) (tm_quark_energy L qu imom)) *ᵥ u = 0 ∧
      star u ⬝ᵥ u ≠ ((2 * Real.sinh (tm_quark_energy L qu imom) : ℝ) : ℂ) := by
  let L : Coords := fun _ => 4
  let qu : Quark := ⟨1 / 8, 1, fun _ => 0, 0, 1⟩
  have hp : momI L qu 0 = fun _ => 0 := by
    funext mu
    have : glbCoordOfGlblx L 0 mu = 0 := by fin_cases mu <;> decide
    simp only [momI, lattMom, this]
    simp [qu]
  have hM : spatialM qu (momI L qu 0) = 0 := by
    rw [hp]; simp only [spatialM, qu, Real.cos_zero]; norm_num
  have hS : spatialS (momI L qu 0) = 0 := by rw [hp]; simp [spatialS]
  have hA : -1 < spatialM qu (momI L qu 0) := by rw [hM]; norm_num
  have h4 : four_sinh2_Eh L qu 0 = 1 := by rw [four_eq, hM, hS]; norm_num [qu]
  obtain ⟨hc, h0⟩ := cosh_energy L qu 0 (by rw [h4]; norm_num)
  rw [h4] at hc
  have hs := Real.cosh_sq (tm_quark_energy L qu 0)
  have hsp : 0 < Real.sinh (tm_quark_energy L qu 0) := by
    have h1 := Real.sinh_nonneg_iff.2 h0
    rcases h1.lt_or_eq with h | h
    · exact h
    · rw [hc, ← h] at hs; norm_num at hs
  have hm : qu.mass = 1 := rfl
  have hpos : 0 < qu.mass + Real.sinh (tm_quark_energy L qu 0) := by rw [hm]; linarith
  refine ⟨L, qu, 0, hA, hpos, ?_⟩
  obtain ⟨⟨u, e1, e2, e3, -⟩, -⟩ := wave_general L qu 0 .wilson _ _ _ _ rfl rfl rfl hA rfl hpos
  refine ⟨u 0, e1 0, e2 0, ?_⟩
  rw [e3 0 0, if_pos rfl]
  simp only [coef0]
  rw [hM, hc, hm]
  generalize Real.sinh (tm_quark_energy L qu 0) = σ at *
  intro h
  have h' := Complex.ofReal_injective h
  have hp : (1 + σ) ≠ 0 := by linarith
  field_simp at h'
  nlinarith

/-- C54: naive massless quarks: the wave functions of particles and antiparticles are orthogonal solutions of `sum_mu gamma_mu sin p_mu=0` with
energy plus and minus `asinh sqrt(sum sin^2 p)`, of squared norm `2 sinh E` -/
theorem C54_naive (L : Coords) (bc : Dir → ℝ) (imom : Nat) (apar : Fin 2)
    (hpos : 0 < spatialS (momI L ⟨0, 0, bc, 0, 0⟩ imom)) :
    let E := naive_massless_quark_energy L bc imom
    let e := if apar = 0 then E else -E
    let p := momI L ⟨0, 0, bc, 0, 0⟩ imom
    Real.sinh E ^ 2 = spatialS p ∧ 0 < E ∧
    ∃ u : Fin 2 → Fin 4 → ℂ, (∀ s, naive_massless_wavefunction L bc imom apar s = some (u s)) ∧
      (∀ s, (∑ mu, Complex.sin (onShell p e mu) • γdir mu) *ᵥ u s = 0) ∧
      (∀ s t, star (u s) ⬝ᵥ u t = if s = t then ((2 * Real.sinh E : ℝ) : ℂ) else 0) := by
  intro E e p
  have hsinh : Real.sinh E = Real.sqrt (spatialS p) := by
    show Real.sinh (Real.arsinh _) = _
    rw [Real.sinh_arsinh]
    congr 1
    unfold spatialS
    simp only [List.foldl_cons, List.foldl_nil, zero_add]
    rfl
  have hsq : Real.sinh E ^ 2 = spatialS p := by rw [hsinh, Real.sq_sqrt hpos.le]
  have hs0 : 0 < Real.sinh E := by rw [hsinh]; exact Real.sqrt_pos.2 hpos
  have hE : 0 < E := Real.sinh_pos_iff.1 hs0
  refine ⟨hsq, hE, ?_⟩
  set σ := Real.sinh E with hσ
  set fact : ℝ := -1 / Real.sqrt σ with hfact
  have hff : fact * fact * (2 * σ * σ) = 2 * σ := by
    rw [hfact, div_mul_div_comm, Real.mul_self_sqrt hs0.le]
    field_simp
  have hunS : spatialS p = Real.sin (p 1) ^ 2 + Real.sin (p 2) ^ 2 + Real.sin (p 3) ^ 2 := rfl
  have hnull : ∀ σ' : ℝ, σ' ^ 2 = σ ^ 2 → cl 0 (fun mu => if mu = 0 then (σ' : ℂ) else I * ((Real.sin (p mu) : ℝ) : ℂ)) 0 *
      cl 0 (fun mu => if mu = 0 then (σ' : ℂ) else I * ((Real.sin (p mu) : ℝ) : ℂ)) 0 = 0 := by
    intro σ' h
    have k := cl_mul 0 (fun mu => if mu = 0 then (σ' : ℂ) else I * ((Real.sin (p mu) : ℝ) : ℂ)) 0
    have t := cl_tilde 0 (fun mu => if mu = 0 then (σ' : ℂ) else I * ((Real.sin (p mu) : ℝ) : ℂ)) 0
    rw [mul_zero, zero_smul, zero_sub] at t
    rw [neg_zero] at k t
    rw [t, Matrix.mul_neg, Fin.sum_univ_four] at k
    simp only [if_true, Fin.isValue, one_ne_zero, if_false, show (2 : Dir) ≠ 0 from by decide, show (3 : Dir) ≠ 0 from by decide, mul_pow, I_sq] at k
    rw [show (0 : ℂ) ^ 2 - ((σ' : ℂ) ^ 2 + -1 * (Real.sin (p 1) : ℂ) ^ 2 + -1 * (Real.sin (p 2) : ℂ) ^ 2 + -1 * (Real.sin (p 3) : ℂ) ^ 2) - 0 ^ 2 =
      ((-σ' ^ 2 + (Real.sin (p 1) ^ 2 + Real.sin (p 2) ^ 2 + Real.sin (p 3) ^ 2) : ℝ) : ℂ) from by push_cast; ring] at k
    rw [← hunS, h, hsq, neg_add_cancel, Complex.ofReal_zero, zero_smul] at k
    exact neg_eq_zero.1 k
  have hop : ∀ es : Int, es = -1 ∨ es = 1 → naive_massless_on_shell_operator L bc imom es =
      some (cl 0 (fun mu => if mu = 0 then ((-(es * σ) : ℝ) : ℂ) else I * ((Real.sin (p mu) : ℝ) : ℂ)) 0, E) := by
    intro es hs
    have hsn : ¬(es ≠ -1 ∧ es ≠ 1) := by rcases hs with h | h <;> simp [h]
    have hes : Real.sinh (es * E) = es * σ := by rcases hs with h | h <;> simp [h, hσ]
    unfold naive_massless_on_shell_operator
    rw [if_neg hsn]
    refine congrArg some (Prod.ext ?_ rfl)
    show _ = cl _ _ _
    unfold cl
    rw [Fin.sum_univ_four]
    simp only [List.foldl_cons, List.foldl_nil, sum_idouble, sum_double]
    rw [show naive_massless_quark_energy L bc imom = E from rfl, hes, show momentum L bc imom = p from rfl, show (putToZero : SpinSpin ℂ) = (0 : M4) from rfl]
    simp only [if_true, Fin.isValue, one_ne_zero, if_false, show (2 : Dir) ≠ 0 from by decide, show (3 : Dir) ≠ 0 from by decide, zero_smul, zero_add, add_zero]
  have hD : ∀ ε : ℝ, Real.sinh ε ^ 2 = σ ^ 2 → (∑ mu, Complex.sin (onShell p ε mu) • γdir mu : M4) = (-I) • cl 0 (fun mu => if mu = 0 then ((-Real.sinh ε : ℝ) : ℂ) else I * ((Real.sin (p mu) : ℝ) : ℂ)) 0 := by
    intro ε _
    unfold cl onShell
    rw [Fin.sum_univ_four, Fin.sum_univ_four]
    simp only [if_true, Fin.isValue, one_ne_zero, if_false, show (2 : Dir) ≠ 0 from by decide, show (3 : Dir) ≠ 0 from by decide, zero_smul, zero_add, add_zero, smul_add, smul_smul]
    rw [mul_comm I (ε : ℂ), Complex.sin_mul_I]
    congr 1
    · congr 1
      · congr 1
        · congr 1; push_cast; ring
        · congr 1; push_cast; linear_combination (Complex.sin (p 1)) * I_mul_I
      · congr 1; push_cast; linear_combination (Complex.sin (p 2)) * I_mul_I
    · congr 1; push_cast; linear_combination (Complex.sin (p 3)) * I_mul_I
  have hK : (0 + σ) ^ 2 + Real.sin (p 1) ^ 2 + Real.sin (p 2) ^ 2 + Real.sin (p 3) ^ 2 + 0 ^ 2 = 2 * σ * σ := by
    rw [hunS] at hsq; linarith
  have hwf : ∀ (es : Int) (s : Fin 2), es = (if apar = 0 then 1 else -1) → naive_massless_wavefunction L bc imom apar s =
      some ((fact : ℂ) • (cl 0 (fun mu => if mu = 0 then ((-(es * σ) : ℝ) : ℂ) else I * ((Real.sin (p mu) : ℝ) : ℂ)) 0 *ᵥ ompg0_eig (other apar) s)) := by
    intro es s hes
    unfold naive_massless_wavefunction
    have : (![1, -1] : Fin 2 → Int) apar = es := by rw [hes]; fin_cases apar <;> simp
    simp only [this]
    rw [hop es (by rw [hes]; fin_cases apar <;> simp)]
    simp only [Option.map_some, spin_prod, scale_eq]
    rfl
  have hes : Real.sinh e = (if apar = 0 then (1 : Int) else -1) * σ := by
    show Real.sinh (if apar = 0 then E else -E) = _
    split <;> simp [hσ, Real.sinh_neg]
  refine ⟨_, fun s => hwf _ s rfl, fun s => ?_, fun s t => ?_⟩
  · rw [hD e (by rw [hes]; fin_cases apar <;> simp), Matrix.mulVec_smul, Matrix.smul_mulVec, Matrix.mulVec_mulVec, hes,
      hnull _ (by fin_cases apar <;> simp), Matrix.zero_mulVec, smul_zero, smul_zero]
  · rw [dot_scale]
    by_cases ha : apar = 0
    · subst ha
      have := wave_norm_p 0 (-σ) 0 (fun mu => Real.sin (p mu)) s t
      simp only [if_true, Int.cast_one, one_mul, show other 0 = 1 from rfl]
      simp only [Complex.ofReal_zero, mul_zero] at this
      rw [this]
      split
      · rw [← Complex.ofReal_mul, show (0 + -σ) ^ 2 + Real.sin (p 1) ^ 2 + Real.sin (p 2) ^ 2 + Real.sin (p 3) ^ 2 + 0 ^ 2 = 2 * σ * σ from by rw [← hK]; ring, hff]
      · rw [mul_zero]
    · have ha1 : apar = 1 := by fin_cases apar; exact absurd rfl ha; rfl
      subst ha1
      have := wave_norm_a 0 (-σ) 0 (fun mu => Real.sin (p mu)) s t
      simp only [Complex.ofReal_zero, mul_zero, Complex.ofReal_neg, neg_neg] at this
      simp only [one_ne_zero, if_false, Int.cast_neg, Int.cast_one, neg_mul, one_mul, neg_neg, show other 1 = 0 from rfl]
      rw [this]
      split
      · rw [← Complex.ofReal_mul, show (0 + -σ) ^ 2 + Real.sin (p 1) ^ 2 + Real.sin (p 2) ^ 2 + Real.sin (p 3) ^ 2 + 0 ^ 2 = 2 * σ * σ from by rw [← hK]; ring, hff]
      · rw [mul_zero]

end Nissa.Free
