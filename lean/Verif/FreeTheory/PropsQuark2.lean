import Verif.FreeTheory.PropsQuark

/-! # C54: propagators on the whole lattice, energies and wave functions -/

set_option linter.all false

namespace Nissa.Free
open Nissa.Lx Nissa.Sten Nissa.Gamma Nissa.Wilson Nissa.StD Matrix Complex

/-- C54: mass and hopping parameter -/
theorem C54_kappa (m0 kappa : ℝ) : (m0 ≠ -4 → m0_of_kappa (kappa_of_m0 m0) = m0) ∧ (kappa ≠ 0 → kappa_of_m0 (m0_of_kappa kappa) = kappa) := by
  constructor
  · intro h
    have h' : m0 + 4 ≠ 0 := fun e => h (by linarith)
    unfold m0_of_kappa kappa_of_m0
    rw [div_div_eq_mul_div, mul_div_assoc]
    norm_num
    field_simp
    ring
  · intro h
    unfold m0_of_kappa kappa_of_m0
    rw [sub_add_cancel, div_div_eq_mul_div]
    field_simp

theorem spinMul_smul_mat (a : ℂ) (M : M4) (v : SpCol) : spinMul (a • M) v = a • spinMul M v := by
  unfold spinMul
  funext i
  simp only [Matrix.smul_apply, Pi.smul_apply, Finset.smul_sum, smul_smul, smul_eq_mul]

/-- the operator of the momentum `c` -/
noncomputable abbrev Dmom (g : Geo) (qu : Quark) (base : Base) (c : Coords) : M4 := quarkD qu base (fun mu => (lattMom (c mu) (qu.bc mu) (g.L mu) : ℂ))

/-- C54: on the whole lattice, for any distribution on the ranks: the field filled by `compute_mom_space_twisted_propagator` and the products from
left and right by the propagator, on spinors, spinors with colour and matrices, hold at each (invertible, not zero mode) momentum what the
operator brings back to the input -/
theorem C54_fields {g : Geo} (ok : g.Ok) (qu : Quark) (base : Base) {c : Coords} (hc : c ∈ box g.L) (hz : ¬IsZeroMode qu c) (hi : IsUnit (Dmom g qu base c))
    (s : Nat → Nat → Fin 4 → ℂ) (v : Nat → Nat → SpCol) (m : Nat → Nat → M4) :
    let a : ℂ := 1 / g.glbVol
    Dmom g qu base c * glob g (compute_mom_space_twisted_propagator g qu base) c = a • 1 ∧
    Dmom g qu base c *ᵥ glob g (multiply_from_left_spin g qu base s) c = a • glob g s c ∧
    glob g (multiply_from_right_spin g qu base s) c ᵥ* Dmom g qu base c = a • glob g s c ∧
    spinMul (Dmom g qu base c) (glob g (multiply_from_left_spincolor g qu base v) c) = a • glob g v c ∧
    spinMul (Dmom g qu base c)ᵀ (glob g (multiply_from_right_spincolor g qu base v) c) = a • glob g v c ∧
    Dmom g qu base c * (glob g (multiply_from_left_spinspin g qu base m) c : M4) = a • glob g m c ∧
    (glob g (multiply_from_right_spinspin g qu base m) c : M4) * Dmom g qu base c = a • glob g m c := by
  intro a
  obtain ⟨h1, h2⟩ := C54_propagator g qu c base hz hi
  obtain ⟨rk, X, e1, e2, hr, hx, hG⟩ := lxSite ok hc
  simp only [hG]
  have hm : momOf g rk X = c := by unfold momOf; rw [hx]; rfl
  set P : M4 := twisted_propagator g qu c base with hP
  have l1 : ∀ y : Fin 4 → ℂ, (fun id1 => [(0 : Fin 4), 1, 2, 3].foldl (fun a id2 => a + P id1 id2 * y id2) 0) = P *ᵥ y := fun y => by
    funext i; simp [foldl4, Matrix.mulVec, dotProduct, Fin.sum_univ_four]
  have l2 : ∀ y : Fin 4 → ℂ, (fun id1 => [(0 : Fin 4), 1, 2, 3].foldl (fun a id2 => a + y id2 * P id2 id1) 0) = y ᵥ* P := fun y => by
    funext i; simp [foldl4, Matrix.vecMul, dotProduct, Fin.sum_univ_four]
  refine ⟨?_, ?_, ?_, ?_, ?_, ?_, ?_⟩
  · unfold compute_mom_space_twisted_propagator
    rw [hm]; exact h1
  · have : multiply_from_left_spin g qu base s rk X = P *ᵥ s rk X := by
      rw [← l1]; unfold multiply_from_left_spin; rw [hm]
    rw [this, Matrix.mulVec_mulVec, h1, Matrix.smul_mulVec, Matrix.one_mulVec]
  · have : multiply_from_right_spin g qu base s rk X = s rk X ᵥ* P := by
      rw [← l2]; unfold multiply_from_right_spin; rw [hm]
    rw [this, Matrix.vecMul_vecMul, h2, Matrix.vecMul_smul, Matrix.vecMul_one]
  · have : multiply_from_left_spincolor g qu base v rk X = spinMul P (v rk X) := by
      unfold multiply_from_left_spincolor spinMul
      rw [hm]
      funext i a; simp [foldl4, Fin.sum_univ_four, ← hP]
    rw [this, spinMul_mul, h1, spinMul_smul_mat, spinMul_one]
  · have : multiply_from_right_spincolor g qu base v rk X = spinMul Pᵀ (v rk X) := by
      unfold multiply_from_right_spincolor spinMul
      rw [hm]
      funext i a; simp [foldl4, Fin.sum_univ_four, ← hP, mul_comm]
    rw [this, spinMul_mul, ← Matrix.transpose_mul, h2, Matrix.transpose_smul, Matrix.transpose_one, spinMul_smul_mat, spinMul_one]
  · have : multiply_from_left_spinspin g qu base m rk X = P * m rk X := by
      unfold multiply_from_left_spinspin
      rw [hm]
      funext i j; simp [foldl4, Matrix.mul_apply, Fin.sum_univ_four, ← hP]
    rw [this, ← Matrix.mul_assoc, h1, Matrix.smul_mul, Matrix.one_mul]
  · have : multiply_from_right_spinspin g qu base m rk X = m rk X * P := by
      unfold multiply_from_right_spinspin
      rw [hm]
      funext i j; simp [foldl4, Matrix.mul_apply, Fin.sum_univ_four, ← hP]
    rw [this, Matrix.mul_assoc, h2, Matrix.mul_smul, Matrix.mul_one]


/-! ## On shell -/

/-- momentum of energy `e`: the time component is imaginary -/
noncomputable def onShell (p : Dir → ℝ) (e : ℝ) : Dir → ℂ := fun mu => if mu = 0 then I * e else p mu

/-- the momentum of the site `imom` -/
noncomputable def momI (L : Coords) (qu : Quark) (imom : Nat) : Dir → ℝ := fun mu => lattMom (glbCoordOfGlblx L imom mu) (qu.bc mu) (L mu)

/-- the Wilson mass of a quark with no time component of the momentum -/
noncomputable def spatialM (qu : Quark) (p : Dir → ℝ) : ℝ := 1 / (2 * qu.kappa) - 4 + ((1 - Real.cos (p 1)) + (1 - Real.cos (p 2)) + (1 - Real.cos (p 3)))

/-- squared sines of the spatial momentum -/
noncomputable def spatialS (p : Dir → ℝ) : ℝ := Real.sin (p 1) ^ 2 + Real.sin (p 2) ^ 2 + Real.sin (p 3) ^ 2

theorem wm_onShell (qu : Quark) (p : Dir → ℝ) (e : ℝ) : wm (1 / (2 * qu.kappa) - 4) (onShell p e) = ((spatialM qu p + (1 - Real.cosh e) : ℝ) : ℂ) := by
  unfold wm onShell spatialM
  rw [Fin.sum_univ_four]
  simp only [if_true, Fin.isValue, one_ne_zero, if_false, show (2 : Dir) ≠ 0 from by decide, show (3 : Dir) ≠ 0 from by decide]
  rw [mul_comm I, Complex.cos_mul_I]
  push_cast
  ring

theorem sin_onShell (p : Dir → ℝ) (e : ℝ) : ∑ nu, Complex.sin (onShell p e nu) ^ 2 = ((spatialS p - Real.sinh e ^ 2 : ℝ) : ℂ) := by
  unfold onShell spatialS
  rw [Fin.sum_univ_four]
  simp only [if_true, Fin.isValue, one_ne_zero, if_false, show (2 : Dir) ≠ 0 from by decide, show (3 : Dir) ≠ 0 from by decide]
  rw [mul_comm I, Complex.sin_mul_I, mul_pow, I_sq]
  push_cast
  ring

theorem shell_sq (A m S e : ℝ) : (A + (1 - Real.cosh e)) ^ 2 + m ^ 2 + (S - Real.sinh e ^ 2) = A ^ 2 + m ^ 2 + S - 2 * (1 + A) * (Real.cosh e - 1) := by
  have := Real.cosh_sq e
  linear_combination this

theorem sin_half (x : ℝ) : Real.sin (x / 2) * Real.sin (x / 2) = (1 - Real.cos x) / 2 := by
  have := half_angle x
  linear_combination -this / 2

theorem four_eq (L : Coords) (qu : Quark) (imom : Nat) : four_sinh2_Eh L qu imom =
    (spatialM qu (momI L qu imom) ^ 2 + qu.mass ^ 2 + spatialS (momI L qu imom)) / (1 + spatialM qu (momI L qu imom)) := by
  unfold four_sinh2_Eh
  simp only [List.foldl_cons, List.foldl_nil]
  rw [show momentum L qu.bc imom = momI L qu imom from rfl]
  simp only [sin_half, m0_eq]
  unfold spatialM spatialS
  have h : ∀ x : ℝ, Real.sin x ^ 2 = 1 - Real.cos x ^ 2 := Real.sin_sq
  simp only [h]
  congr 1 <;> ring

theorem cosh_energy (L : Coords) (qu : Quark) (imom : Nat) (h : 0 ≤ four_sinh2_Eh L qu imom) :
    Real.cosh (tm_quark_energy L qu imom) = 1 + four_sinh2_Eh L qu imom / 2 ∧ 0 ≤ tm_quark_energy L qu imom := by
  unfold tm_quark_energy
  constructor
  · rw [Real.cosh_two_mul, Real.cosh_sq, Real.sinh_arsinh, Real.sq_sqrt (by linarith)]
    ring
  · have := Real.arsinh_nonneg_iff.2 (Real.sqrt_nonneg (four_sinh2_Eh L qu imom / 4))
    linarith

theorem four_nonneg (L : Coords) (qu : Quark) (imom : Nat) (hA : -1 < spatialM qu (momI L qu imom)) : 0 ≤ four_sinh2_Eh L qu imom := by
  rw [four_eq]
  refine div_nonneg ?_ (by linarith)
  unfold spatialS
  positivity

/-- C54: unless the Wilson mass is too negative, `tm_quark_energy` is the only non-negative energy for which the quark operator has a
zero, in both bases -/
theorem C54_energy (L : Coords) (qu : Quark) (imom : Nat) (base : Base) (hA : -1 < spatialM qu (momI L qu imom)) :
    0 ≤ tm_quark_energy L qu imom ∧
    ∀ e : ℝ, 0 ≤ e → (¬IsUnit (quarkD qu base (onShell (momI L qu imom) e)) ↔ e = tm_quark_energy L qu imom) := by
  have h4 := four_nonneg L qu imom hA
  obtain ⟨hc, h0⟩ := cosh_energy L qu imom h4
  refine ⟨h0, fun e he => ?_⟩
  rw [quarkD_unit, wm_onShell, sin_onShell, not_not]
  rw [show ∀ a b c : ℝ, (a : ℂ) ^ 2 + (b : ℂ) ^ 2 + (c : ℂ) = ((a ^ 2 + b ^ 2 + c : ℝ) : ℂ) from fun a b c => by push_cast; rfl]
  rw [Complex.ofReal_eq_zero, shell_sq]
  have hne : 1 + spatialM qu (momI L qu imom) ≠ 0 := by linarith
  have e1 : Real.cosh e = Real.cosh (tm_quark_energy L qu imom) ↔ e = tm_quark_energy L qu imom := by
    constructor
    · intro h
      have a := Real.cosh_le_cosh.1 h.le
      have b := Real.cosh_le_cosh.1 h.ge
      rw [abs_of_nonneg he, abs_of_nonneg h0] at a b
      exact le_antisymm a b
    · intro h; rw [h]
  rw [← e1, hc, four_eq]
  constructor
  · intro h
    field_simp
    linear_combination -h
  · intro h
    rw [h]
    field_simp
    ring

/-- the quark of opposite flavour -/
def flip (qu : Quark) : Quark := { qu with r := other qu.r }

theorem tau_other (r : Fin 2) : tau3 (other r) = -tau3 r := by fin_cases r <;> simp [tau3, other]

theorem onShell_cl (L : Coords) (qu : Quark) (imom : Nat) (tilded : Bool) (esign : Int) (base : Base) (hs : esign = -1 ∨ esign = 1) (E : ℝ) (p : Dir → ℝ) (M t : ℝ)
    (hE : tm_quark_energy L qu imom = E) (hp : momentum L qu.bc imom = p) (hM : M = spatialM qu p + (1 - Real.cosh E)) (ht : t = if tilded then -1 else 1) :
    twisted_on_shell_operator L qu imom tilded esign base = some (cl (coef0 base M qu.mass : ℝ)
      (fun mu => if mu = 0 then ((-t * (esign * Real.sinh E) : ℝ) : ℂ) else I * ((t * Real.sin (p mu) : ℝ) : ℂ))
      (I * ((t * coef5 base (tau3 qu.r) M qu.mass : ℝ) : ℂ)), E) := by
  have hsn : ¬(esign ≠ -1 ∧ esign ≠ 1) := by rcases hs with h | h <;> simp [h]
  have hsinh : Real.sinh (esign * E) = esign * Real.sinh E := by rcases hs with h | h <;> simp [h]
  have hsh2 : Real.sinh (esign * E / 2) * Real.sinh (esign * E / 2) = (Real.cosh E - 1) / 2 := by
    have h1 := Real.cosh_two_mul (E / 2)
    have h2 := Real.cosh_sq (E / 2)
    rw [mul_div_cancel₀ E two_ne_zero] at h1
    rcases hs with h | h
    · rw [h, show ((-1 : Int) : ℝ) * E / 2 = -(E / 2) from by push_cast; ring, Real.sinh_neg]
      linear_combination -h1 / 2 - h2 / 2
    · rw [h, show ((1 : Int) : ℝ) * E / 2 = (E / 2) from by push_cast; ring]
      linear_combination -h1 / 2 - h2 / 2
  unfold twisted_on_shell_operator
  rw [if_neg hsn, hE]
  refine congrArg some (Prod.ext ?_ rfl)
  show on_shell_matrix _ _ _ _ _ _ _ = cl _ _ _
  unfold on_shell_matrix
  rw [hp]
  simp only [List.foldl_cons, List.foldl_nil]
  clear hE hp
  simp only [hsh2, sin_half, m0_eq, hsinh, sum_idouble, sum_double, diag_eq]
  rw [show (1 / (2 * qu.kappa) - 4 + 2 * (-((Real.cosh E - 1) / 2) + (1 - Real.cos (p 1)) / 2 + (1 - Real.cos (p 2)) / 2 + (1 - Real.cos (p 3)) / 2) : ℝ) = M from by
    rw [hM]
    unfold spatialM
    ring]
  have e1 : Function.update (Function.update (Function.update (fun _ : Dir => (0:ℝ)) 1 (Real.sin (p 1))) 2 (Real.sin (p 2))) 3 (Real.sin (p 3)) 1 = Real.sin (p 1) := by
    rw [Function.update_of_ne (by decide), Function.update_of_ne (by decide), Function.update_self]
  have e2 : Function.update (Function.update (Function.update (fun _ : Dir => (0:ℝ)) 1 (Real.sin (p 1))) 2 (Real.sin (p 2))) 3 (Real.sin (p 3)) 2 = Real.sin (p 2) := by
    rw [Function.update_of_ne (by decide), Function.update_self]
  rw [e1, e2, Function.update_self]
  unfold cl
  rw [Fin.sum_univ_four]
  simp only [if_true, Fin.isValue, one_ne_zero, if_false, show (2 : Dir) ≠ 0 from by decide, show (3 : Dir) ≠ 0 from by decide]
  dsimp only [γdir, Γ]
  generalize dense (baseGamma (iGammaOfMu 0)) = G0
  generalize dense (baseGamma (iGammaOfMu 1)) = G1
  generalize dense (baseGamma (iGammaOfMu 2)) = G2
  generalize dense (baseGamma (iGammaOfMu 3)) = G3
  generalize dense (baseGamma 5) = G5
  cases tilded <;> cases base <;> simp [ht, coef0, coef5, add_assoc, mul_comm]

/-- C54: the on-shell operator is the quark operator continued to imaginary time component of the momentum, with the sign of the energy
asked; the tilded one is the same for the other flavour and the opposite momentum; any other sign is refused.  Their product vanishes. -/
theorem C54_on_shell (L : Coords) (qu : Quark) (imom : Nat) (esign : Int) (base : Base) :
    (esign ≠ -1 → esign ≠ 1 → ∀ t, twisted_on_shell_operator L qu imom t esign base = none) ∧
    (esign = -1 ∨ esign = 1 →
      twisted_on_shell_operator L qu imom false esign base =
        some (quarkD qu base (onShell (momI L qu imom) (esign * tm_quark_energy L qu imom)), tm_quark_energy L qu imom) ∧
      twisted_on_shell_operator L qu imom true esign base =
        some (quarkD (flip qu) base (-onShell (momI L qu imom) (esign * tm_quark_energy L qu imom)), tm_quark_energy L qu imom) ∧
      (-1 < spatialM qu (momI L qu imom) →
        quarkD qu base (onShell (momI L qu imom) (esign * tm_quark_energy L qu imom)) *
          quarkD (flip qu) base (-onShell (momI L qu imom) (esign * tm_quark_energy L qu imom)) = 0)) := by
  refine ⟨fun h1 h2 t => by unfold twisted_on_shell_operator; rw [if_pos ⟨h1, h2⟩], fun hs => ?_⟩
  have hch : Real.cosh (esign * tm_quark_energy L qu imom) = Real.cosh (tm_quark_energy L qu imom) := by rcases hs with h | h <;> simp [h]
  have hsh : Real.sinh (esign * tm_quark_energy L qu imom) = esign * Real.sinh (tm_quark_energy L qu imom) := by rcases hs with h | h <;> simp [h]
  set E := tm_quark_energy L qu imom with hE
  set p := momI L qu imom with hp
  have hx : (fun nu => I * Complex.sin (onShell p (esign * E) nu)) =
      fun mu => if mu = 0 then ((-(1 : ℝ) * (esign * Real.sinh E) : ℝ) : ℂ) else I * (((1 : ℝ) * Real.sin (p mu) : ℝ) : ℂ) := by
    funext mu
    unfold onShell
    by_cases h : mu = 0
    · simp only [h, if_true]
      rw [mul_comm I ((esign * E : ℝ) : ℂ), Complex.sin_mul_I, ← Complex.ofReal_sinh, hsh]
      push_cast
      linear_combination (esign : ℂ) * Complex.sinh E * I_mul_I
    · simp only [h, if_false, one_mul, Complex.ofReal_sin]
  have d1 : quarkD qu base (onShell p (esign * E)) = cl (coef0 base (spatialM qu p + (1 - Real.cosh E)) qu.mass : ℝ)
      (fun mu => if mu = 0 then ((-(1 : ℝ) * (esign * Real.sinh E) : ℝ) : ℂ) else I * (((1 : ℝ) * Real.sin (p mu) : ℝ) : ℂ))
      (I * (((1 : ℝ) * coef5 base (tau3 qu.r) (spatialM qu p + (1 - Real.cosh E)) qu.mass : ℝ) : ℂ)) := by
    rw [quarkD_cl, wm_onShell, hch, hx]
    cases base <;> simp only [coef0, coef5, one_mul] <;> push_cast <;> rfl
  have d2 : quarkD (flip qu) base (-onShell p (esign * E)) = cl (coef0 base (spatialM qu p + (1 - Real.cosh E)) qu.mass : ℝ)
      (fun mu => if mu = 0 then ((-(-1 : ℝ) * (esign * Real.sinh E) : ℝ) : ℂ) else I * (((-1 : ℝ) * Real.sin (p mu) : ℝ) : ℂ))
      (I * (((-1 : ℝ) * coef5 base (tau3 qu.r) (spatialM qu p + (1 - Real.cosh E)) qu.mass : ℝ) : ℂ)) := by
    have hw : wm (1 / (2 * (flip qu).kappa) - 4) (-onShell p (esign * E)) = ((spatialM qu p + (1 - Real.cosh E) : ℝ) : ℂ) := by
      have := wm_onShell qu p (esign * E); rw [hch] at this
      rw [← this]
      unfold wm
      simp [flip]
    rw [quarkD_cl, hw]
    have hx' : (fun nu => I * Complex.sin ((-onShell p (esign * E)) nu)) =
      fun mu => if mu = 0 then ((-(-1 : ℝ) * (esign * Real.sinh E) : ℝ) : ℂ) else I * (((-1 : ℝ) * Real.sin (p mu) : ℝ) : ℂ) := by
      funext mu
      have := congrFun hx mu
      simp only [Pi.neg_apply, Complex.sin_neg, mul_neg]
      rw [this]
      split <;> push_cast <;> ring
    rw [hx']
    rw [show (flip qu).r = other qu.r from rfl, show (flip qu).mass = qu.mass from rfl, tau_other]
    cases base <;> simp only [coef0, coef5] <;> push_cast <;> congr 2 <;> ring
  refine ⟨?_, ?_, fun hA => ?_⟩
  · rw [d1]
    exact onShell_cl L qu imom false esign base hs E p _ 1 hE.symm hp.symm rfl rfl
  · rw [d2]
    exact onShell_cl L qu imom true esign base hs E p _ (-1) hE.symm hp.symm rfl rfl
  · have hu := quarkD_unit qu base (onShell p (esign * E))
    have key : ¬IsUnit (quarkD qu base (onShell p (esign * E))) := by
      have h := ((C54_energy L qu imom base hA).2 E (C54_energy L qu imom base hA).1).2 rfl
      rw [quarkD_unit, wm_onShell, sin_onShell] at h ⊢
      have hsq : Real.sinh (esign * E) ^ 2 = Real.sinh E ^ 2 := by rw [hsh]; rcases hs with h | h <;> simp [h]
      rw [hch, hsq]
      exact h
    rw [d1, cl_isUnit, not_not] at key
    rw [d1, d2]
    have e := cl_mul (coef0 base (spatialM qu p + (1 - Real.cosh E)) qu.mass : ℝ)
      (fun mu => if mu = 0 then ((-(1 : ℝ) * (esign * Real.sinh E) : ℝ) : ℂ) else I * (((1 : ℝ) * Real.sin (p mu) : ℝ) : ℂ))
      (I * (((1 : ℝ) * coef5 base (tau3 qu.r) (spatialM qu p + (1 - Real.cosh E)) qu.mass : ℝ) : ℂ))
    rw [key, zero_smul] at e
    rw [← e]
    congr 2
    · funext mu
      simp only [Pi.neg_apply]
      split <;> push_cast <;> ring
    · push_cast; ring

end Nissa.Free
