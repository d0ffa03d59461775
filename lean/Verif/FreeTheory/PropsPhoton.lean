import Verif.FreeTheory.Photon
import Verif.FreeTheory.PropsQuark

/-! # C55: the gauge propagator in momentum space -/

set_option linter.all false

namespace Nissa.Phot
open Nissa.Lx Nissa.Free Nissa.Fft Matrix Complex

noncomputable section

/-! ### Specification -/

/-- lattice momentum `2 sin(p/2)` -/
def khat (L : Coords) (bc : Dir → ℝ) (c : Coords) (mu : Dir) : ℝ := 2 * Real.sin (lattMom (c mu) (bc mu) (L mu) / 2)

/-- weight of the squared field strength `F_mu_nu` in the action with plaquettes (coefficient `1-8 c1`) and planar rectangles (coefficient
`c1`): a rectangle of length 2 in the direction `mu` gives `F(x)+F(x+mu)`, that is `1+e^{i p_mu}` times `F` -/
def planar (c1 : ℝ) (p : Dir → ℝ) (mu nu : Dir) : ℝ :=
  (1 - 8 * c1) + c1 * (Complex.normSq (1 + Complex.exp (p mu * I)) + Complex.normSq (1 + Complex.exp (p nu * I)))

/-- kernel of the quadratic action, given the lattice momentum and the weight of each plane -/
def kernelOf (k : Dir → ℝ) (q : Dir → Dir → ℝ) : Matrix (Fin 4) (Fin 4) ℝ := fun mu nu =>
  (if mu = nu then ∑ rho, (if rho = mu then 0 else q mu rho * k rho ^ 2) else -(q mu nu * k mu * k nu))

/-- kernel of the quadratic action for the momentum `p` -/
def kernel (c1 : ℝ) (p : Dir → ℝ) : Matrix (Fin 4) (Fin 4) ℝ := kernelOf (fun mu => 2 * Real.sin (p mu / 2)) (planar c1 p)

/-- C55: the kernel is that of the sum of the squared field strengths `k_mu a_nu - k_nu a_mu`, on all the planes -/
theorem C55_kernel_action (c1 : ℝ) (p : Dir → ℝ) (a : Dir → ℝ) :
    a ⬝ᵥ kernel c1 p *ᵥ a = ∑ mu, ∑ nu, (if mu < nu then planar c1 p mu nu * (2 * Real.sin (p mu / 2) * a nu - 2 * Real.sin (p nu / 2) * a mu) ^ 2 else 0) := by
  have hs : ∀ mu nu, planar c1 p mu nu = planar c1 p nu mu := fun mu nu => by unfold planar; ring
  unfold kernel
  obtain ⟨k, hk⟩ : ∃ k : Dir → ℝ, ∀ mu, 2 * Real.sin (p mu / 2) = k mu := ⟨_, fun _ => rfl⟩
  simp only [hk]
  generalize planar c1 p = q at hs ⊢
  have h10 := hs 1 0; have h20 := hs 2 0; have h30 := hs 3 0; have h21 := hs 2 1; have h31 := hs 3 1; have h32 := hs 3 2
  simp only [dotProduct, mulVec, kernelOf, Fin.sum_univ_four, h10, h20, h30, h21, h31, h32]
  simp
  ring

end

/-- polynomial form of the weight -/
theorem planar_eq (c1 : ℝ) (p : Dir → ℝ) (mu nu : Dir) :
    planar c1 p mu nu = 1 - c1 * ((2 * Real.sin (p mu / 2)) ^ 2 + (2 * Real.sin (p nu / 2)) ^ 2) := by
  have h : ∀ a : ℝ, Complex.normSq (1 + Complex.exp (a * I)) = 4 - (2 * Real.sin (a / 2)) ^ 2 := fun a => by
    have e : (1 + Complex.exp (a * I)) = ⟨1 + Real.cos a, Real.sin a⟩ := by
      rw [Complex.exp_mul_I]
      apply Complex.ext <;> simp [← Complex.ofReal_cos, ← Complex.ofReal_sin]
    rw [e, Complex.normSq_mk]
    have h1 := half_angle a
    have h3 := Real.sin_sq_add_cos_sq a
    linear_combination h3 - 2 * h1
  unfold planar
  rw [h, h]; ring

/-- polynomial of `Deltakt A` -/
noncomputable def Bmat (c1 : ℝ) (m : Mom) (mu nu : Dir) : ℝ :=
  if mu = nu then 0 else m.kt2 ^ 2 - c1 * m.kt2 * (2 * m.kt4 + m.kt2 * ktso2 m.kt mu nu) + c1 ^ 2 * (m.kt4 ^ 2 + m.kt2 * m.kt4 * ktso2 m.kt mu nu + m.kt2 ^ 2 * ktpo2 m.kt mu nu)

theorem Amat_eq (c1 : ℝ) (m : Mom) (mu nu : Dir) : Amat c1 m mu nu = Bmat c1 m mu nu / Deltakt c1 m := by
  unfold Amat Bmat kron
  by_cases h : mu = nu
  · simp [h]
  · simp only [h, if_false]; ring

/-- the sums of powers -/
def MomOk (m : Mom) : Prop := m.kt2 = ∑ mu, m.kt mu ^ 2 ∧ m.kt4 = ∑ mu, m.kt mu ^ 4 ∧ m.kt6 = ∑ mu, m.kt mu ^ 6

/-- transverse part of the propagator, times the squared squared momentum -/
noncomputable def Nmat (B : Dir → Dir → ℝ) (k : Dir → ℝ) : Matrix (Fin 4) (Fin 4) ℝ := fun mu nu =>
  if mu = nu then ∑ si, k si ^ 2 * B si nu else -(k mu * k nu * B mu nu)

/-- explicit polynomial of `Deltakt` -/
noncomputable def DeltaP (c1 x0 x1 x2 x3 : ℝ) : ℝ :=
  let e := x0 + x1 + x2 + x3
  let p2 := x0 ^ 2 + x1 ^ 2 + x2 ^ 2 + x3 ^ 2
  let p3 := x0 ^ 3 + x1 ^ 3 + x2 ^ 3 + x3 ^ 3
  (e - c1 * p2) * (e - c1 * (e ^ 2 + p2) + c1 ^ 2 * (e ^ 3 + 2 * p3 - e * p2) / 2) - 4 * c1 ^ 3 * (x0 * x1 * x2 * x3 * e)

/-- explicit polynomial of `Deltakt A` for two directions, `x` and `y` being the squared momenta in the other two -/
def BP (c1 e p2 x y : ℝ) : ℝ := e ^ 2 - c1 * e * (2 * p2 + e * (x + y)) + c1 ^ 2 * (p2 ^ 2 + e * p2 * (x + y) + e ^ 2 * (x * y))

theorem diag_id {c1 x0 x1 x2 x3 e p2 D b1 b2 b3 : ℝ} (he : e = x0 + x1 + x2 + x3) (hp : p2 = x0 ^ 2 + x1 ^ 2 + x2 ^ 2 + x3 ^ 2) (hD : D = DeltaP c1 x0 x1 x2 x3)
    (h1 : b1 = BP c1 e p2 x2 x3) (h2 : b2 = BP c1 e p2 x1 x3) (h3 : b3 = BP c1 e p2 x1 x2) :
    let q1 := 1 - c1 * (x0 + x1)
    let q2 := 1 - c1 * (x0 + x2)
    let q3 := 1 - c1 * (x0 + x3)
    (q1 * x1 + q2 * x2 + q3 * x3) * (x1 * b1 + x2 * b2 + x3 * b3) + x0 * (x1 * q1 * b1 + x2 * q2 * b2 + x3 * q3 * b3) = D * (e * (x1 + x2 + x3)) := by
  subst h1 h2 h3 hD he hp
  simp only [BP, DeltaP]
  ring

theorem off_id {c1 x0 x1 x2 x3 e p2 D b01 b12 b13 : ℝ} (he : e = x0 + x1 + x2 + x3) (hp : p2 = x0 ^ 2 + x1 ^ 2 + x2 ^ 2 + x3 ^ 2) (hD : D = DeltaP c1 x0 x1 x2 x3)
    (h01 : b01 = BP c1 e p2 x2 x3) (h12 : b12 = BP c1 e p2 x0 x3) (h13 : b13 = BP c1 e p2 x0 x2) :
    let q01 := 1 - c1 * (x0 + x1)
    let q02 := 1 - c1 * (x0 + x2)
    let q03 := 1 - c1 * (x0 + x3)
    (q01 * x1 + q02 * x2 + q03 * x3) * b01 + q01 * (x0 * b01 + x2 * b12 + x3 * b13) - q02 * x2 * b12 - q03 * x3 * b13 = D * e := by
  subst h01 h12 h13 hD he hp
  simp only [BP, DeltaP]
  ring

theorem Delta_eq (c1 : ℝ) (m : Mom) (hm : MomOk m) : Deltakt c1 m = DeltaP c1 (m.kt 0 ^ 2) (m.kt 1 ^ 2) (m.kt 2 ^ 2) (m.kt 3 ^ 2) := by
  obtain ⟨k, k2, k4, k6⟩ := m
  obtain ⟨h2, h4, h6⟩ := hm
  simp only [Fin.sum_univ_four] at h2 h4 h6
  subst h2 h4 h6
  simp [Deltakt, ktpo2, dirs, DeltaP]
  ring

/-- matrix whose product with the kernel is to be computed, from the six values of the symmetric `B` -/
theorem kernel_mul (c1 : ℝ) (m : Mom) (hm : MomOk m) :
    kernelOf m.kt (fun mu nu => 1 - c1 * (m.kt mu ^ 2 + m.kt nu ^ 2)) * Nmat (Bmat c1 m) m.kt =
      Deltakt c1 m • (m.kt2 ^ 2 • (1 : Matrix (Fin 4) (Fin 4) ℝ) - m.kt2 • vecMulVec m.kt m.kt) := by
  have hB : ∀ mu nu, Bmat c1 m mu nu = if mu = nu then 0 else BP c1 m.kt2 m.kt4 (ktso2 m.kt mu nu) 0 + c1 ^ 2 * m.kt2 ^ 2 * ktpo2 m.kt mu nu := by
    intro mu nu
    unfold Bmat BP
    split <;> ring
  have hD := Delta_eq c1 m hm
  obtain ⟨k, e, p2, p3⟩ := m
  obtain ⟨h2, h4, -⟩ := hm
  dsimp only at *
  simp only [Fin.sum_univ_four] at h2 h4
  have b : ∀ mu nu, Bmat c1 ⟨k, e, p2, p3⟩ mu nu = Bmat c1 ⟨k, e, p2, p3⟩ nu mu := fun mu nu => by
    rw [hB, hB]
    fin_cases mu <;> fin_cases nu <;> simp [ktso2, ktpo2, dirs]
  have b00 : ∀ mu, Bmat c1 ⟨k, e, p2, p3⟩ mu mu = 0 := fun mu => by simp [Bmat]
  have b01 : Bmat c1 ⟨k, e, p2, p3⟩ 0 1 = BP c1 e p2 (k 2 ^ 2) (k 3 ^ 2) := by rw [hB]; simp [ktso2, ktpo2, dirs, BP]; ring
  have b02 : Bmat c1 ⟨k, e, p2, p3⟩ 0 2 = BP c1 e p2 (k 1 ^ 2) (k 3 ^ 2) := by rw [hB]; simp [ktso2, ktpo2, dirs, BP]; ring
  have b03 : Bmat c1 ⟨k, e, p2, p3⟩ 0 3 = BP c1 e p2 (k 1 ^ 2) (k 2 ^ 2) := by rw [hB]; simp [ktso2, ktpo2, dirs, BP]; ring
  have b12 : Bmat c1 ⟨k, e, p2, p3⟩ 1 2 = BP c1 e p2 (k 0 ^ 2) (k 3 ^ 2) := by rw [hB]; simp [ktso2, ktpo2, dirs, BP]; ring
  have b13 : Bmat c1 ⟨k, e, p2, p3⟩ 1 3 = BP c1 e p2 (k 0 ^ 2) (k 2 ^ 2) := by rw [hB]; simp [ktso2, ktpo2, dirs, BP]; ring
  have b23 : Bmat c1 ⟨k, e, p2, p3⟩ 2 3 = BP c1 e p2 (k 0 ^ 2) (k 1 ^ 2) := by rw [hB]; simp [ktso2, ktpo2, dirs, BP]; ring
  have b10 := b 1 0; have b20 := b 2 0; have b30 := b 3 0; have b21 := b 2 1; have b31 := b 3 1; have b32 := b 3 2
  generalize Bmat c1 ⟨k, e, p2, p3⟩ = B at *
  generalize Deltakt c1 ⟨k, e, p2, p3⟩ = D at *
  obtain ⟨B01, e01⟩ : ∃ a, B 0 1 = a := ⟨_, rfl⟩
  obtain ⟨B02, e02⟩ : ∃ a, B 0 2 = a := ⟨_, rfl⟩
  obtain ⟨B03, e03⟩ : ∃ a, B 0 3 = a := ⟨_, rfl⟩
  obtain ⟨B12, e12⟩ : ∃ a, B 1 2 = a := ⟨_, rfl⟩
  obtain ⟨B13, e13⟩ : ∃ a, B 1 3 = a := ⟨_, rfl⟩
  obtain ⟨B23, e23⟩ : ∃ a, B 2 3 = a := ⟨_, rfl⟩
  rw [e01] at b01 b10; rw [e02] at b02 b20; rw [e03] at b03 b30; rw [e12] at b12 b21; rw [e13] at b13 b31; rw [e23] at b23 b32
  obtain ⟨k0, h0⟩ : ∃ a, k 0 = a := ⟨_, rfl⟩
  obtain ⟨k1, h1⟩ : ∃ a, k 1 = a := ⟨_, rfl⟩
  obtain ⟨k2, h2'⟩ : ∃ a, k 2 = a := ⟨_, rfl⟩
  obtain ⟨k3, h3⟩ : ∃ a, k 3 = a := ⟨_, rfl⟩
  simp only [h0, h1, h2', h3] at h2 h4 hD b01 b02 b03 b12 b13 b23
  have eq : ∀ mu nu, (kernelOf k (fun mu nu => 1 - c1 * (k mu ^ 2 + k nu ^ 2)) * Nmat B k) mu nu = (D • (e ^ 2 • (1 : Matrix (Fin 4) (Fin 4) ℝ) - e • vecMulVec k k)) mu nu := by
    intro mu nu
    fin_cases mu <;> fin_cases nu <;>
      simp [Matrix.mul_apply, Fin.sum_univ_four, kernelOf, Nmat, vecMulVec_apply, h0, h1, h2', h3, b00, b10, b20, b30, b21, b31, b32, e01, e02, e03, e12, e13, e23]
    · have := diag_id (c1 := c1) (x0 := k0 ^ 2) (x1 := k1 ^ 2) (x2 := k2 ^ 2) (x3 := k3 ^ 2) (e := e) (p2 := p2) (D := D) (b1 := B01) (b2 := B02) (b3 := B03) (by rw [h2]; try ring) (by rw [h4]; try ring) (by simp only [hD, DeltaP]; try ring) (by simp only [b01, BP]; try ring) (by simp only [b02, BP]; try ring) (by simp only [b03, BP]; try ring)
      dsimp only at this
      linear_combination this - D * e * h2
    · have := off_id (c1 := c1) (x0 := k0 ^ 2) (x1 := k1 ^ 2) (x2 := k2 ^ 2) (x3 := k3 ^ 2) (e := e) (p2 := p2) (D := D) (b01 := B01) (b12 := B12) (b13 := B13) (by rw [h2]; try ring) (by rw [h4]; try ring) (by simp only [hD, DeltaP]; try ring) (by simp only [b01, BP]; try ring) (by simp only [b12, BP]; try ring) (by simp only [b13, BP]; try ring)
      dsimp only at this
      linear_combination (-k0 * k1) * this
    · have := off_id (c1 := c1) (x0 := k0 ^ 2) (x1 := k2 ^ 2) (x2 := k1 ^ 2) (x3 := k3 ^ 2) (e := e) (p2 := p2) (D := D) (b01 := B02) (b12 := B12) (b13 := B23) (by rw [h2]; try ring) (by rw [h4]; try ring) (by simp only [hD, DeltaP]; try ring) (by simp only [b02, BP]; try ring) (by simp only [b12, BP]; try ring) (by simp only [b23, BP]; try ring)
      dsimp only at this
      linear_combination (-k0 * k2) * this
    · have := off_id (c1 := c1) (x0 := k0 ^ 2) (x1 := k3 ^ 2) (x2 := k1 ^ 2) (x3 := k2 ^ 2) (e := e) (p2 := p2) (D := D) (b01 := B03) (b12 := B13) (b13 := B23) (by rw [h2]; try ring) (by rw [h4]; try ring) (by simp only [hD, DeltaP]; try ring) (by simp only [b03, BP]; try ring) (by simp only [b13, BP]; try ring) (by simp only [b23, BP]; try ring)
      dsimp only at this
      linear_combination (-k0 * k3) * this
    · have := off_id (c1 := c1) (x0 := k1 ^ 2) (x1 := k0 ^ 2) (x2 := k2 ^ 2) (x3 := k3 ^ 2) (e := e) (p2 := p2) (D := D) (b01 := B01) (b12 := B02) (b13 := B03) (by rw [h2]; try ring) (by rw [h4]; try ring) (by simp only [hD, DeltaP]; try ring) (by simp only [b01, BP]; try ring) (by simp only [b02, BP]; try ring) (by simp only [b03, BP]; try ring)
      dsimp only at this
      linear_combination (-k1 * k0) * this
    · have := diag_id (c1 := c1) (x0 := k1 ^ 2) (x1 := k0 ^ 2) (x2 := k2 ^ 2) (x3 := k3 ^ 2) (e := e) (p2 := p2) (D := D) (b1 := B01) (b2 := B12) (b3 := B13) (by rw [h2]; try ring) (by rw [h4]; try ring) (by simp only [hD, DeltaP]; try ring) (by simp only [b01, BP]; try ring) (by simp only [b12, BP]; try ring) (by simp only [b13, BP]; try ring)
      dsimp only at this
      linear_combination this - D * e * h2
    · have := off_id (c1 := c1) (x0 := k1 ^ 2) (x1 := k2 ^ 2) (x2 := k0 ^ 2) (x3 := k3 ^ 2) (e := e) (p2 := p2) (D := D) (b01 := B12) (b12 := B02) (b13 := B23) (by rw [h2]; try ring) (by rw [h4]; try ring) (by simp only [hD, DeltaP]; try ring) (by simp only [b12, BP]; try ring) (by simp only [b02, BP]; try ring) (by simp only [b23, BP]; try ring)
      dsimp only at this
      linear_combination (-k1 * k2) * this
    · have := off_id (c1 := c1) (x0 := k1 ^ 2) (x1 := k3 ^ 2) (x2 := k0 ^ 2) (x3 := k2 ^ 2) (e := e) (p2 := p2) (D := D) (b01 := B13) (b12 := B03) (b13 := B23) (by rw [h2]; try ring) (by rw [h4]; try ring) (by simp only [hD, DeltaP]; try ring) (by simp only [b13, BP]; try ring) (by simp only [b03, BP]; try ring) (by simp only [b23, BP]; try ring)
      dsimp only at this
      linear_combination (-k1 * k3) * this
    · have := off_id (c1 := c1) (x0 := k2 ^ 2) (x1 := k0 ^ 2) (x2 := k1 ^ 2) (x3 := k3 ^ 2) (e := e) (p2 := p2) (D := D) (b01 := B02) (b12 := B01) (b13 := B03) (by rw [h2]; try ring) (by rw [h4]; try ring) (by simp only [hD, DeltaP]; try ring) (by simp only [b02, BP]; try ring) (by simp only [b01, BP]; try ring) (by simp only [b03, BP]; try ring)
      dsimp only at this
      linear_combination (-k2 * k0) * this
    · have := off_id (c1 := c1) (x0 := k2 ^ 2) (x1 := k1 ^ 2) (x2 := k0 ^ 2) (x3 := k3 ^ 2) (e := e) (p2 := p2) (D := D) (b01 := B12) (b12 := B01) (b13 := B13) (by rw [h2]; try ring) (by rw [h4]; try ring) (by simp only [hD, DeltaP]; try ring) (by simp only [b12, BP]; try ring) (by simp only [b01, BP]; try ring) (by simp only [b13, BP]; try ring)
      dsimp only at this
      linear_combination (-k2 * k1) * this
    · have := diag_id (c1 := c1) (x0 := k2 ^ 2) (x1 := k0 ^ 2) (x2 := k1 ^ 2) (x3 := k3 ^ 2) (e := e) (p2 := p2) (D := D) (b1 := B02) (b2 := B12) (b3 := B23) (by rw [h2]; try ring) (by rw [h4]; try ring) (by simp only [hD, DeltaP]; try ring) (by simp only [b02, BP]; try ring) (by simp only [b12, BP]; try ring) (by simp only [b23, BP]; try ring)
      dsimp only at this
      linear_combination this - D * e * h2
    · have := off_id (c1 := c1) (x0 := k2 ^ 2) (x1 := k3 ^ 2) (x2 := k0 ^ 2) (x3 := k1 ^ 2) (e := e) (p2 := p2) (D := D) (b01 := B23) (b12 := B03) (b13 := B13) (by rw [h2]; try ring) (by rw [h4]; try ring) (by simp only [hD, DeltaP]; try ring) (by simp only [b23, BP]; try ring) (by simp only [b03, BP]; try ring) (by simp only [b13, BP]; try ring)
      dsimp only at this
      linear_combination (-k2 * k3) * this
    · have := off_id (c1 := c1) (x0 := k3 ^ 2) (x1 := k0 ^ 2) (x2 := k1 ^ 2) (x3 := k2 ^ 2) (e := e) (p2 := p2) (D := D) (b01 := B03) (b12 := B01) (b13 := B02) (by rw [h2]; try ring) (by rw [h4]; try ring) (by simp only [hD, DeltaP]; try ring) (by simp only [b03, BP]; try ring) (by simp only [b01, BP]; try ring) (by simp only [b02, BP]; try ring)
      dsimp only at this
      linear_combination (-k3 * k0) * this
    · have := off_id (c1 := c1) (x0 := k3 ^ 2) (x1 := k1 ^ 2) (x2 := k0 ^ 2) (x3 := k2 ^ 2) (e := e) (p2 := p2) (D := D) (b01 := B13) (b12 := B01) (b13 := B12) (by rw [h2]; try ring) (by rw [h4]; try ring) (by simp only [hD, DeltaP]; try ring) (by simp only [b13, BP]; try ring) (by simp only [b01, BP]; try ring) (by simp only [b12, BP]; try ring)
      dsimp only at this
      linear_combination (-k3 * k1) * this
    · have := off_id (c1 := c1) (x0 := k3 ^ 2) (x1 := k2 ^ 2) (x2 := k0 ^ 2) (x3 := k1 ^ 2) (e := e) (p2 := p2) (D := D) (b01 := B23) (b12 := B02) (b13 := B12) (by rw [h2]; try ring) (by rw [h4]; try ring) (by simp only [hD, DeltaP]; try ring) (by simp only [b23, BP]; try ring) (by simp only [b02, BP]; try ring) (by simp only [b12, BP]; try ring)
      dsimp only at this
      linear_combination (-k3 * k2) * this
    · have := diag_id (c1 := c1) (x0 := k3 ^ 2) (x1 := k0 ^ 2) (x2 := k1 ^ 2) (x3 := k2 ^ 2) (e := e) (p2 := p2) (D := D) (b1 := B03) (b2 := B13) (b3 := B23) (by rw [h2]; try ring) (by rw [h4]; try ring) (by simp only [hD, DeltaP]; try ring) (by simp only [b03, BP]; try ring) (by simp only [b13, BP]; try ring) (by simp only [b23, BP]; try ring)
      dsimp only at this
      linear_combination this - D * e * h2
  ext mu nu
  exact eq mu nu

end Nissa.Phot
