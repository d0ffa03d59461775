import Verif.Spin.Gamma
import Mathlib.LinearAlgebra.LinearIndependent.Defs
import Mathlib.LinearAlgebra.Matrix.Trace
import Mathlib.LinearAlgebra.FiniteDimensional.Lemmas
import Mathlib.LinearAlgebra.Dimension.Constructions
import Mathlib.Tactic.LinearCombination

/-! # C30: the spin matrices -/

set_option linter.all false

namespace Nissa.Gamma

open Matrix

/-- the matrix `γ_k` (k-th of the tabulated ones) as a complex 4x4 matrix -/
noncomputable abbrev Γ (k : Fin 19) : Matrix (Fin 4) (Fin 4) ℂ := dense (baseGamma k)

/-- the matrix associated by the code to direction `mu` (time is 0) -/
noncomputable abbrev γdir (mu : Fin 4) : Matrix (Fin 4) (Fin 4) ℂ := Γ (iGammaOfMu mu)

/-! ## helpers -/

theorem dense_toC (a : DiracMatr GaussianInt) :
    dense (toC a) = (dense a).map GaussianInt.toComplex := by
  ext i j
  simp only [dense, Matrix.of_apply, Matrix.map_apply, toC]
  by_cases h : j = a.pos i <;> simp [h]

theorem dense_prod {K : Type} [CommRing K] (a b : DiracMatr K) :
    dense (diracProd a b) = dense a * dense b := by
  ext i j
  simp only [dense, diracProd, Matrix.of_apply, Matrix.mul_apply]
  rw [Finset.sum_eq_single (a.pos i)]
  · by_cases h : j = b.pos (a.pos i) <;> simp [h]
  · intro x _ hx
    rw [if_neg hx, zero_mul]
  · intro h; exact absurd (Finset.mem_univ _) h

theorem toC_prod (a b : DiracMatr GaussianInt) : toC (diracProd a b) = diracProd (toC a) (toC b) := by
  simp [toC, diracProd]

/-- index in the table of the first sixteen -/
def lift16 (k : Fin 16) : Fin 19 := ⟨k, by omega⟩

theorem baseGamma_lift (k : Fin 16) : baseGamma (lift16 k) = toC (table k) := by
  have : ((lift16 k : Fin 19) : ℕ) < 16 := k.2
  simp only [baseGamma, this, dif_pos]
  rfl

theorem Γ_lift (k : Fin 16) : Γ (lift16 k) = (dense (table k)).map GaussianInt.toComplex := by
  rw [Γ, baseGamma_lift, dense_toC]

theorem map_mul' (a b : Matrix (Fin 4) (Fin 4) GaussianInt) :
    (a * b).map GaussianInt.toComplex = a.map GaussianInt.toComplex * b.map GaussianInt.toComplex :=
  Matrix.map_mul

theorem map_add' (a b : Matrix (Fin 4) (Fin 4) GaussianInt) :
    (a + b).map GaussianInt.toComplex = a.map GaussianInt.toComplex + b.map GaussianInt.toComplex :=
  Matrix.map_add _ (map_add _) _ _

theorem map_one' : (1 : Matrix (Fin 4) (Fin 4) GaussianInt).map GaussianInt.toComplex = 1 :=
  Matrix.map_one _ (map_zero _) (map_one _)

theorem map_zero' : (0 : Matrix (Fin 4) (Fin 4) GaussianInt).map GaussianInt.toComplex = 0 :=
  Matrix.map_zero _ (map_zero _)

theorem map_star' (a : Matrix (Fin 4) (Fin 4) GaussianInt) :
    (aᴴ).map GaussianInt.toComplex = (a.map GaussianInt.toComplex)ᴴ := by
  ext i j
  simp only [Matrix.map_apply, Matrix.conjTranspose_apply]
  exact GaussianInt.toComplex_star _

/-- index of the direction matrix in the table -/
def dir16 : Fin 4 → Fin 16 := ![4, 1, 2, 3]

theorem lift_dir (mu : Fin 4) : iGammaOfMu mu = lift16 (dir16 mu) := by
  fin_cases mu <;> rfl

theorem γdir_eq (mu : Fin 4) : γdir mu = (dense (table (dir16 mu))).map GaussianInt.toComplex := by
  rw [γdir, lift_dir, Γ_lift]

theorem cliff_int : ∀ mu nu : Fin 4, dense (table (dir16 mu)) * dense (table (dir16 nu))
    + dense (table (dir16 nu)) * dense (table (dir16 mu)) =
    if mu = nu then 1 + 1 else (0 : Matrix (Fin 4) (Fin 4) GaussianInt) := by
  decide +kernel

/-! ## the properties -/

/-- The four direction matrices anticommute and square to one. -/
theorem C30_clifford (mu nu : Fin 4) :
    γdir mu * γdir nu + γdir nu * γdir mu = if mu = nu then (2 : ℂ) • 1 else 0 := by
  rw [γdir_eq, γdir_eq, ← map_mul', ← map_mul', ← map_add', cliff_int]
  by_cases h : mu = nu
  · rw [if_pos h, if_pos h, map_add', map_one', two_smul]
  · rw [if_neg h, if_neg h, map_zero']

theorem herm_int : ∀ mu : Fin 4, (dense (table (dir16 mu)))ᴴ = dense (table (dir16 mu)) := by
  decide +kernel

theorem herm5_int : (dense (table 5))ᴴ = dense (table 5) := by
  decide +kernel

theorem five_int : dense (table 4) * dense (table 1) * dense (table 2) * dense (table 3) = dense (table 5) := by
  decide +kernel

theorem Γ5_eq : Γ 5 = (dense (table 5)).map GaussianInt.toComplex := Γ_lift 5

/-- The direction matrices and `γ5` are hermitian. -/
theorem C30_hermitian : (∀ mu, (γdir mu)ᴴ = γdir mu) ∧ (Γ 5)ᴴ = Γ 5 := by
  refine ⟨fun mu => ?_, ?_⟩
  · rw [γdir_eq, ← map_star', herm_int]
  · rw [Γ5_eq, ← map_star', herm5_int]

theorem anti5_int : ∀ mu : Fin 4, dense (table (dir16 mu)) * dense (table 5)
    + dense (table 5) * dense (table (dir16 mu)) = 0 := by
  decide +kernel

/-- `γ5` is the product of the four in the order time, 1, 2, 3; it anticommutes with each and squares to one. -/
theorem C30_gamma5 : Γ 5 = γdir 0 * γdir 1 * γdir 2 * γdir 3 ∧
    (∀ mu, γdir mu * Γ 5 + Γ 5 * γdir mu = 0) ∧ Γ 5 * Γ 5 = 1 := by
  have hsq : dense (table 5) * dense (table 5) = 1 := by decide +kernel
  refine ⟨?_, fun mu => ?_, ?_⟩
  · rw [γdir_eq, γdir_eq, γdir_eq, γdir_eq, Γ5_eq, ← map_mul', ← map_mul', ← map_mul']
    exact congrArg (fun m => Matrix.map m GaussianInt.toComplex) five_int.symm
  · rw [γdir_eq, Γ5_eq, ← map_mul', ← map_mul', ← map_add', anti5_int, map_zero']
  · rw [Γ5_eq, ← map_mul', hsq, map_one']

/-- The comment describing the table (`/repo/src/new_types/dirac.cpp:22-37`): matrix 0 is the identity and
matrices 6..15 are the products announced; the three extra ones are `γ0 γi γ5` (`/repo/src/new_types/dirac.hpp:32`). -/
theorem C30_products : Γ 0 = 1 ∧
    Γ 6 = γdir 1 * Γ 5 ∧ Γ 7 = γdir 2 * Γ 5 ∧ Γ 8 = γdir 3 * Γ 5 ∧ Γ 9 = γdir 0 * Γ 5 ∧
    Γ 10 = γdir 0 * γdir 1 ∧ Γ 11 = γdir 0 * γdir 2 ∧ Γ 12 = γdir 0 * γdir 3 ∧
    Γ 13 = γdir 2 * γdir 3 ∧ Γ 14 = γdir 3 * γdir 1 ∧ Γ 15 = γdir 1 * γdir 2 ∧
    Γ 16 = γdir 0 * γdir 1 * Γ 5 ∧ Γ 17 = γdir 0 * γdir 2 * Γ 5 ∧ Γ 18 = γdir 0 * γdir 3 * Γ 5 := by
  have key : dense (table 0) = 1 ∧
      dense (table 6) = dense (table 1) * dense (table 5) ∧ dense (table 7) = dense (table 2) * dense (table 5) ∧
      dense (table 8) = dense (table 3) * dense (table 5) ∧ dense (table 9) = dense (table 4) * dense (table 5) ∧
      dense (table 10) = dense (table 4) * dense (table 1) ∧ dense (table 11) = dense (table 4) * dense (table 2) ∧
      dense (table 12) = dense (table 4) * dense (table 3) ∧ dense (table 13) = dense (table 2) * dense (table 3) ∧
      dense (table 14) = dense (table 3) * dense (table 1) ∧ dense (table 15) = dense (table 1) * dense (table 2) := by
    decide +kernel
  obtain ⟨k0, k6, k7, k8, k9, k10, k11, k12, k13, k14, k15⟩ := key
  have e (k : Fin 16) : dense (toC (table k)) = (dense (table k)).map GaussianInt.toComplex := dense_toC _
  have b (k : Fin 16) : baseGamma (lift16 k) = toC (table k) := baseGamma_lift k
  have g0 : γdir 0 = dense (toC (table 4)) := congrArg dense (b 4)
  have g1 : γdir 1 = dense (toC (table 1)) := congrArg dense (b 1)
  have g2 : γdir 2 = dense (toC (table 2)) := congrArg dense (b 2)
  have g3 : γdir 3 = dense (toC (table 3)) := congrArg dense (b 3)
  have g5 : Γ 5 = dense (toC (table 5)) := congrArg dense (b 5)
  have b16 : baseGamma 16 = diracProd (toC (table 4)) (toC (table 6)) := by simp [baseGamma]
  have b17 : baseGamma 17 = diracProd (toC (table 4)) (toC (table 7)) := by simp [baseGamma]
  have b18 : baseGamma 18 = diracProd (toC (table 4)) (toC (table 8)) := by simp [baseGamma]
  refine ⟨?_, ?_, ?_, ?_, ?_, ?_, ?_, ?_, ?_, ?_, ?_, ?_, ?_, ?_⟩
  · rw [show Γ 0 = dense (toC (table 0)) from congrArg dense (b 0), e, k0, map_one']
  · rw [show Γ 6 = dense (toC (table 6)) from congrArg dense (b 6), g1, g5, e, e, e, k6, map_mul']
  · rw [show Γ 7 = dense (toC (table 7)) from congrArg dense (b 7), g2, g5, e, e, e, k7, map_mul']
  · rw [show Γ 8 = dense (toC (table 8)) from congrArg dense (b 8), g3, g5, e, e, e, k8, map_mul']
  · rw [show Γ 9 = dense (toC (table 9)) from congrArg dense (b 9), g0, g5, e, e, e, k9, map_mul']
  · rw [show Γ 10 = dense (toC (table 10)) from congrArg dense (b 10), g0, g1, e, e, e, k10, map_mul']
  · rw [show Γ 11 = dense (toC (table 11)) from congrArg dense (b 11), g0, g2, e, e, e, k11, map_mul']
  · rw [show Γ 12 = dense (toC (table 12)) from congrArg dense (b 12), g0, g3, e, e, e, k12, map_mul']
  · rw [show Γ 13 = dense (toC (table 13)) from congrArg dense (b 13), g2, g3, e, e, e, k13, map_mul']
  · rw [show Γ 14 = dense (toC (table 14)) from congrArg dense (b 14), g3, g1, e, e, e, k14, map_mul']
  · rw [show Γ 15 = dense (toC (table 15)) from congrArg dense (b 15), g1, g2, e, e, e, k15, map_mul']
  · rw [Γ, b16, dense_prod, g0, g1, g5, e 6, k6, map_mul', ← e, ← e, mul_assoc]
  · rw [Γ, b17, dense_prod, g0, g2, g5, e 7, k7, map_mul', ← e, ← e, mul_assoc]
  · rw [Γ, b18, dense_prod, g0, g3, g5, e 8, k8, map_mul', ← e, ← e, mul_assoc]

def phases : Fin 4 → GaussianInt := ![1, -1, ⟨0, 1⟩, ⟨0, -1⟩]

def scaled (ph : GaussianInt) (m : Matrix (Fin 4) (Fin 4) GaussianInt) : Matrix (Fin 4) (Fin 4) GaussianInt :=
  Matrix.of fun a b => ph * m a b

theorem closure_int : ∀ i j : Fin 16, ∃ k : Fin 16, ∃ q : Fin 4,
    dense (diracProd (table i) (table j)) = scaled (phases q) (dense (table k)) := by
  decide +kernel

/-- The product of any two of the sixteen is one of the sixteen up to a phase in `{1,-1,i,-i}`. -/
theorem C30_closed (i j : Fin 16) : ∃ k : Fin 16, ∃ ph : ℂ, ph ^ 4 = 1 ∧
    Γ (lift16 i) * Γ (lift16 j) = ph • Γ (lift16 k) := by
  obtain ⟨k, q, h⟩ := closure_int i j
  refine ⟨k, GaussianInt.toComplex (phases q), ?_, ?_⟩
  · have h4 : ∀ q, phases q ^ 4 = 1 := by decide +kernel
    rw [← map_pow, h4, map_one]
  · rw [Γ_lift, Γ_lift, Γ_lift, ← map_mul', ← dense_prod]
    ext a b
    rw [Matrix.map_apply, h, scaled, Matrix.of_apply, map_mul, Matrix.smul_apply, Matrix.map_apply, smul_eq_mul]

theorem orth_int : ∀ i j : Fin 16, Matrix.trace ((dense (table i))ᴴ * dense (table j)) = if i = j then 4 else 0 := by
  decide +kernel

/-- The sixteen are orthogonal for the trace scalar product ... -/
theorem C30_orthogonal (i j : Fin 16) :
    Matrix.trace ((Γ (lift16 i))ᴴ * Γ (lift16 j)) = if i = j then 4 else 0 := by
  rw [Γ_lift, Γ_lift, ← map_star', ← map_mul']
  have : Matrix.trace (((dense (table i))ᴴ * dense (table j)).map GaussianInt.toComplex)
      = GaussianInt.toComplex (Matrix.trace ((dense (table i))ᴴ * dense (table j))) := by
    simp only [Matrix.trace, Matrix.diag, map_sum, Matrix.map_apply]
  rw [this, orth_int]
  by_cases h : i = j
  · rw [if_pos h, if_pos h]; exact map_ofNat _ 4
  · rw [if_neg h, if_neg h]; exact map_zero _

/-- ... so that every complex 4x4 matrix is a combination of them, with the coefficients given by traces: they are a
basis. -/
theorem C30_basis : LinearIndependent ℂ (fun k : Fin 16 => Γ (lift16 k)) ∧
    ∀ M : Matrix (Fin 4) (Fin 4) ℂ, ∃ c : Fin 16 → ℂ, M = ∑ k, c k • Γ (lift16 k) := by
  have hli : LinearIndependent ℂ (fun k : Fin 16 => Γ (lift16 k)) := by
    rw [Fintype.linearIndependent_iff]
    intro g hg i
    have h1 : Matrix.trace ((Γ (lift16 i))ᴴ * ∑ k, g k • Γ (lift16 k)) = 0 := by
      rw [hg]; simp
    rw [Finset.mul_sum, Matrix.trace_sum] at h1
    have h2 : ∀ k, Matrix.trace ((Γ (lift16 i))ᴴ * g k • Γ (lift16 k)) = g k * if i = k then 4 else 0 := by
      intro k
      rw [Matrix.mul_smul, Matrix.trace_smul, C30_orthogonal, smul_eq_mul]
    rw [Finset.sum_congr rfl (fun k _ => h2 k)] at h1
    simp [mul_ite] at h1
    exact h1
  refine ⟨hli, fun M => ?_⟩
  have hcard : Fintype.card (Fin 16) = Module.finrank ℂ (Matrix (Fin 4) (Fin 4) ℂ) := by
    rw [Module.finrank_matrix]; simp
  have hsp := hli.span_eq_top_of_card_eq_finrank hcard
  have hM : M ∈ Submodule.span ℂ (Set.range fun k : Fin 16 => Γ (lift16 k)) := by rw [hsp]; trivial
  obtain ⟨c, hc⟩ := (Submodule.mem_span_range_iff_exists_fun ℂ).1 hM
  exact ⟨c, hc.symm⟩

end Nissa.Gamma
