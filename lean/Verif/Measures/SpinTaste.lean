import Verif.Measures.Stag
import Verif.Spin.PropsGamma

/-! # C62: the pattern of shifts and phases is that of the spin-taste operator

The field of the staggered quark at the corner `A` of a hypercube stands for the component `Γ_A=γ0^A0 γ1^A1 γ2^A2 γ3^A3` of the matrix (spin,
taste) attached to the hypercube: so the operator `Γ_spin` on the spin and `Γ_taste` on the taste has kernel `tr(Γ_A^† Γ_spin Γ_B Γ_taste^†)/4`
between the corners `A` and `B`. -/

set_option linter.all false

namespace Nissa.Stag
open Nissa.Lx Nissa.Gamma Matrix

noncomputable section

/-- the ordered product of the gammas in the directions of `a` -/
def gammaWord {A : Type} [Ring A] (γ : Fin 4 → A) (a : Fin 4 → Bool) : A :=
  (if a 0 then γ 0 else 1) * ((if a 1 then γ 1 else 1) * ((if a 2 then γ 2 else 1) * (if a 3 then γ 3 else 1)))

/-- the sign of the product of two words: number of exchanges -/
def wordSign (a b : Fin 4 → Bool) : Int :=
  (if a 1 && b 0 then -1 else 1) * (if a 2 && (xor (b 0) (b 1)) then -1 else 1) * (if a 3 && (xor (b 0) (xor (b 1) (b 2))) then -1 else 1)

section
variable {A : Type} [Ring A] (γ : Fin 4 → A) (hsq : ∀ mu, γ mu * γ mu = 1) (hac : ∀ mu nu, mu ≠ nu → γ mu * γ nu = -(γ nu * γ mu))
include hsq hac

theorem word_step0 (t : Bool) (b : Fin 4 → Bool) : (if t then γ 0 else 1) * gammaWord γ b = gammaWord γ ![xor t (b 0), b 1, b 2, b 3] := by
  unfold gammaWord
  have s : ∀ mu (x : A), γ mu * (γ mu * x) = x := fun mu x => by rw [← mul_assoc, hsq, one_mul]
  generalize b 0 = b0; generalize b 1 = b1; generalize b 2 = b2; generalize b 3 = b3
  cases t <;> cases b0 <;> simp [s, hsq]

theorem word_step1 (t : Bool) (b : Fin 4 → Bool) : (if t then γ 1 else 1) * gammaWord γ b = ((if t && b 0 then -1 else 1 : Int) : A) * gammaWord γ ![b 0, xor t (b 1), b 2, b 3] := by
  unfold gammaWord
  have s : ∀ mu (x : A), γ mu * (γ mu * x) = x := fun mu x => by rw [← mul_assoc, hsq, one_mul]
  have l10 : ∀ x, γ 1 * (γ 0 * x) = -(γ 0 * (γ 1 * x)) := fun x => by rw [← mul_assoc, hac 1 0 (by decide), neg_mul, mul_assoc]
  generalize b 0 = b0; generalize b 1 = b1; generalize b 2 = b2; generalize b 3 = b3
  cases t <;> cases b0 <;> cases b1 <;> simp [s, hsq, l10, hac 1 0 (by decide)]

theorem word_step2 (t : Bool) (b : Fin 4 → Bool) :
    (if t then γ 2 else 1) * gammaWord γ b = ((if t && (xor (b 0) (b 1)) then -1 else 1 : Int) : A) * gammaWord γ ![b 0, b 1, xor t (b 2), b 3] := by
  unfold gammaWord
  have s : ∀ mu (x : A), γ mu * (γ mu * x) = x := fun mu x => by rw [← mul_assoc, hsq, one_mul]
  have l20 : ∀ x, γ 2 * (γ 0 * x) = -(γ 0 * (γ 2 * x)) := fun x => by rw [← mul_assoc, hac 2 0 (by decide), neg_mul, mul_assoc]
  have l21 : ∀ x, γ 2 * (γ 1 * x) = -(γ 1 * (γ 2 * x)) := fun x => by rw [← mul_assoc, hac 2 1 (by decide), neg_mul, mul_assoc]
  generalize b 0 = b0; generalize b 1 = b1; generalize b 2 = b2; generalize b 3 = b3
  cases t <;> cases b0 <;> cases b1 <;> cases b2 <;> simp [s, hsq, l20, l21, hac 2 0 (by decide), hac 2 1 (by decide)]

theorem word_step3 (t : Bool) (b : Fin 4 → Bool) :
    (if t then γ 3 else 1) * gammaWord γ b = ((if t && (xor (b 0) (xor (b 1) (b 2))) then -1 else 1 : Int) : A) * gammaWord γ ![b 0, b 1, b 2, xor t (b 3)] := by
  unfold gammaWord
  have l30 : ∀ x, γ 3 * (γ 0 * x) = -(γ 0 * (γ 3 * x)) := fun x => by rw [← mul_assoc, hac 3 0 (by decide), neg_mul, mul_assoc]
  have l31 : ∀ x, γ 3 * (γ 1 * x) = -(γ 1 * (γ 3 * x)) := fun x => by rw [← mul_assoc, hac 3 1 (by decide), neg_mul, mul_assoc]
  have l32 : ∀ x, γ 3 * (γ 2 * x) = -(γ 2 * (γ 3 * x)) := fun x => by rw [← mul_assoc, hac 3 2 (by decide), neg_mul, mul_assoc]
  have c32 := hac 3 2 (by decide)
  have c31 := hac 3 1 (by decide)
  have c30 := hac 3 0 (by decide)
  generalize b 0 = b0; generalize b 1 = b1; generalize b 2 = b2; generalize b 3 = b3
  cases t <;> cases b0 <;> cases b1 <;> cases b2 <;> cases b3 <;> simp [hsq, l30, l31, l32, c30, c31, c32]

theorem word_mul (a b : Fin 4 → Bool) : gammaWord γ a * gammaWord γ b = (wordSign a b : A) * gammaWord γ (fun mu => xor (a mu) (b mu)) := by
  rw [show gammaWord γ a = (if a 0 then γ 0 else 1) * ((if a 1 then γ 1 else 1) * ((if a 2 then γ 2 else 1) * (if a 3 then γ 3 else 1))) from rfl]
  have e : ∀ (x : A) (n : Int) y, x * ((n : A) * y) = (n : A) * (x * y) := fun x n y => by rw [← mul_assoc, ← Int.cast_comm, mul_assoc]
  rw [mul_assoc, mul_assoc, mul_assoc, word_step3 γ hsq hac, e (if a 2 = true then γ 2 else 1), word_step2 γ hsq hac, e (if a 1 = true then γ 1 else 1), e (if a 1 = true then γ 1 else 1),
    word_step1 γ hsq hac, e (if a 0 = true then γ 0 else 1), e (if a 0 = true then γ 0 else 1), e (if a 0 = true then γ 0 else 1), word_step0 γ hsq hac]
  have hw : gammaWord γ (fun mu => xor (a mu) (b mu)) = gammaWord γ ![xor (a 0) (b 0), xor (a 1) (b 1), xor (a 2) (b 2), xor (a 3) (b 3)] := rfl
  rw [hw, ← mul_assoc, ← mul_assoc, ← Int.cast_mul, ← Int.cast_mul]
  simp only [cons_val_zero, cons_val_one, cons_val, wordSign]
  refine congrArg (fun n : Int => (n : A) * gammaWord γ _) ?_
  exact (show ∀ x y z : Int, x * y * z = z * y * x from fun x y z => by ring) _ _ _

/-- the word is undone by the product of the same gammas: it is, up to the sign, its own inverse -/
theorem word_self (a : Fin 4 → Bool) : gammaWord γ a * gammaWord γ a = (wordSign a a : A) := by
  rw [word_mul γ hsq hac]
  simp [gammaWord]

end

/-- the words made with the gamma matrices of the code -/
abbrev GammaW (a : Fin 4 → Bool) : Matrix (Fin 4) (Fin 4) ℂ := gammaWord γdir a

theorem γ_sq (mu : Fin 4) : γdir mu * γdir mu = 1 := by
  have := C30_clifford mu mu
  rw [if_pos rfl, ← two_smul ℂ] at this
  exact smul_right_injective _ (two_ne_zero' ℂ) this

theorem γ_ac (mu nu : Fin 4) (h : mu ≠ nu) : γdir mu * γdir nu = -(γdir nu * γdir mu) := by
  have := C30_clifford mu nu
  rw [if_neg h] at this
  exact eq_neg_of_add_eq_zero_left this

theorem GammaW_mul (a b : Fin 4 → Bool) : GammaW a * GammaW b = ((wordSign a b : Int) : ℂ) • GammaW (fun mu => xor (a mu) (b mu)) := by
  rw [word_mul γdir γ_sq γ_ac]
  rw [← zsmul_eq_mul, ← Int.cast_smul_eq_zsmul ℂ]

theorem wordSign_pm (a b : Fin 4 → Bool) : wordSign a b = 1 ∨ wordSign a b = -1 := by
  unfold wordSign
  split <;> split <;> split <;> simp

theorem wordSign_sq (a b : Fin 4 → Bool) : wordSign a b * wordSign a b = 1 := by
  rcases wordSign_pm a b with h | h <;> rw [h] <;> rfl

/-- the adjoint of a word -/
theorem GammaW_dag (a : Fin 4 → Bool) : (GammaW a)ᴴ = ((wordSign a a : Int) : ℂ) • GammaW a := by
  have hu : (GammaW a)ᴴ * GammaW a = 1 := by
    unfold GammaW gammaWord
    have h := C30_hermitian.1
    have s : ∀ mu (x : Matrix (Fin 4) (Fin 4) ℂ), γdir mu * (γdir mu * x) = x := fun mu x => by rw [← mul_assoc, γ_sq, one_mul]
    cases a 0 <;> cases a 1 <;> cases a 2 <;> cases a 3 <;> simp [conjTranspose_mul, h, mul_assoc, s, γ_sq]
  have h2 : GammaW a * GammaW a = ((wordSign a a : Int) : ℂ) • 1 := by
    rw [GammaW_mul]
    simp [GammaW, gammaWord]
  calc (GammaW a)ᴴ = (GammaW a)ᴴ * (((wordSign a a : Int) : ℂ) • (GammaW a * GammaW a)) := by
        rw [h2, smul_smul, ← Int.cast_mul, wordSign_sq]; simp
    _ = _ := by rw [mul_smul_comm, ← mul_assoc, hu, one_mul]

theorem anti_exists : ∀ a : Fin 4 → Bool, (a ≠ fun _ => false) → ∃ mu : Fin 4, wordSign (fun nu => nu = mu) a = -wordSign a (fun nu => nu = mu) := by
  decide +kernel

theorem GammaW_tr (a : Fin 4 → Bool) : (GammaW a).trace = if a = fun _ => false then 4 else 0 := by
  have anti : ∀ mu, γdir mu * GammaW a = -(GammaW a * γdir mu) → (GammaW a).trace = 0 := by
    intro mu h
    have h1 : (γdir mu * (GammaW a * γdir mu)).trace = (GammaW a).trace := by
      rw [Matrix.trace_mul_comm, mul_assoc, γ_sq, mul_one]
    rw [← mul_assoc, h, neg_mul, mul_assoc, γ_sq, mul_one, trace_neg] at h1
    have : (2 : ℂ) * (GammaW a).trace = 0 := by linear_combination -h1
    simpa using this
  have sgl : ∀ mu : Fin 4, γdir mu = GammaW (fun nu => nu = mu) := by
    intro mu
    fin_cases mu <;> simp [GammaW, gammaWord]
  by_cases h0 : a = fun _ => false
  · rw [if_pos h0, h0]
    simp [GammaW, gammaWord]
  · rw [if_neg h0]
    obtain ⟨mu, hm⟩ := anti_exists a h0
    refine anti mu ?_
    rw [sgl mu, GammaW_mul, GammaW_mul, hm]
    have : (fun nu => xor (decide (nu = mu)) (a nu)) = (fun nu => xor (a nu) (decide (nu = mu))) := by funext nu; exact Bool.xor_comm _ _
    rw [this]
    simp

theorem pattern_bits (spin taste : Int) (mu : Fin 4) : bit (form_stag_op_pattern spin taste) mu =
    ![xor (bit spin 1) (xor (bit spin 2) (bit spin 3)), xor (bit taste 0) (xor (bit spin 2) (bit spin 3)),
      xor (bit taste 0) (xor (bit taste 1) (bit spin 3)), xor (bit taste 0) (xor (bit taste 1) (bit taste 2))] mu := by
  unfold form_stag_op_pattern
  simp only [show List.range 4 = [0, 1, 2, 3] from rfl, show List.range 0 = [] from rfl, show List.range 1 = [0] from rfl, show List.range 2 = [0, 1] from rfl, show List.range 3 = [0, 1, 2] from rfl, List.foldl_cons, List.foldl_nil,
    show ([0, 1, 2, 3].filter fun nu => decide (0 + 1 ≤ nu)) = [1, 2, 3] from rfl, show ([0, 1, 2, 3].filter fun nu => decide (1 + 1 ≤ nu)) = [2, 3] from rfl,
    show ([0, 1, 2, 3].filter fun nu => decide (2 + 1 ≤ nu)) = [3] from rfl, show ([0, 1, 2, 3].filter fun nu => decide (3 + 1 ≤ nu)) = [] from rfl,
    List.map_cons, List.map_nil, List.sum_cons, List.sum_nil]
  generalize bit spin 1 = s1; generalize bit spin 2 = s2; generalize bit spin 3 = s3
  generalize bit taste 0 = t0; generalize bit taste 1 = t1; generalize bit taste 2 = t2
  revert mu s1 s2 s3 t0 t1 t2
  decide +kernel

theorem xor4_bits (a b : Int) (mu : Fin 4) : bit (xor4 a b) mu = xor (bit a mu) (bit b mu) := by
  have : ∀ (a0 a1 a2 a3 b0 b1 b2 b3 : Bool) (mu : Fin 4), bit ([0, 1, 2, 3].foldl (fun (r : Int) mu => r + (if [a0, a1, a2, a3].getD mu false != [b0, b1, b2, b3].getD mu false then 2 ^ mu else 0)) 0) mu =
      xor ([a0, a1, a2, a3].getD mu false) ([b0, b1, b2, b3].getD mu false) := by decide +kernel
  have := this (bit a 0) (bit a 1) (bit a 2) (bit a 3) (bit b 0) (bit b 1) (bit b 2) (bit b 3) mu
  unfold xor4
  fin_cases mu <;> exact this

theorem sign_key : ∀ S T A : Fin 4 → Bool, wordSign A A * (wordSign T T * (wordSign A S * (wordSign (fun mu => xor (A mu) (S mu)) (fun mu => xor (A mu) (xor (S mu) (T mu))) *
          (wordSign (fun mu => xor (xor (A mu) (S mu)) (xor (A mu) (xor (S mu) (T mu)))) T)))) = wordSign S (fun mu => xor (S mu) (T mu)) *
          ∏ mu : Fin 4, (if (![xor (S 1) (xor (S 2) (S 3)), xor (T 0) (xor (S 2) (S 3)), xor (T 0) (xor (T 1) (S 3)), xor (T 0) (xor (T 1) (T 2))] : Fin 4 → Bool) mu && A mu then -1 else 1 : Int) := by
  decide +kernel

/-- C62: the directions of the shift (`spin` xor `taste`) and the mask of the phases of `form_stag_op_pattern` are those of the kernel of the
operator `Γ_spin` on the spin and `Γ_taste` on the taste, for all the matrices, up to a sign common to the whole operator. -/
theorem C62_spin_taste (spin taste : Int) : ∃ σ : ℂ, (σ = 1 ∨ σ = -1) ∧ ∀ A B : Fin 4 → Bool,
    ((GammaW A)ᴴ * GammaW (fun mu => bit spin mu) * GammaW B * (GammaW fun mu => bit taste mu)ᴴ).trace / 4 =
      if ∀ mu : Fin 4, B mu = xor (A mu) (bit (xor4 spin taste) mu) then σ * ∏ mu ∈ bits (form_stag_op_pattern spin taste), (if A mu then (-1 : ℂ) else 1) else 0 := by
  set S : Fin 4 → Bool := fun mu => bit spin mu with hS
  set T : Fin 4 → Bool := fun mu => bit taste mu with hT
  refine ⟨(wordSign S (fun mu => xor (S mu) (T mu)) : ℂ), ?_, fun A B => ?_⟩
  · rcases wordSign_pm S (fun mu => xor (S mu) (T mu)) with h | h <;> rw [h] <;> simp
  · rw [GammaW_dag, GammaW_dag, smul_mul_assoc, GammaW_mul, smul_mul_assoc, smul_mul_assoc, smul_mul_assoc, GammaW_mul, mul_smul_comm, smul_mul_assoc, smul_mul_assoc, GammaW_mul]
    rw [trace_smul, trace_smul, trace_smul, trace_smul, trace_smul, GammaW_tr]
    simp only [xor4_bits]
    have hz : ((fun mu => xor (xor (xor (A mu) (S mu)) (B mu)) (T mu)) = fun _ => false) ↔ ∀ mu : Fin 4, B mu = xor (A mu) (xor (bit spin mu) (bit taste mu)) := by
      rw [funext_iff]
      refine forall_congr' fun mu => ?_
      show xor (xor (xor (A mu) (bit spin mu)) (B mu)) (bit taste mu) = false ↔ _
      cases A mu <;> cases B mu <;> cases bit spin mu <;> cases bit taste mu <;> simp
    by_cases h : ∀ mu : Fin 4, B mu = xor (A mu) (xor (bit spin mu) (bit taste mu))
    · rw [if_pos (hz.2 h), if_pos h]
      have hB : B = fun mu => xor (A mu) (xor (S mu) (T mu)) := funext h
      have hm : ∏ mu ∈ bits (form_stag_op_pattern spin taste), (if A mu then (-1 : ℂ) else 1) =
          (((∏ mu : Fin 4, (if (![xor (S 1) (xor (S 2) (S 3)), xor (T 0) (xor (S 2) (S 3)), xor (T 0) (xor (T 1) (S 3)), xor (T 0) (xor (T 1) (T 2))] : Fin 4 → Bool) mu && A mu then -1 else 1 : Int)) : Int) : ℂ) := by
        unfold bits
        rw [Finset.prod_filter]
        push_cast
        refine Finset.prod_congr rfl fun mu _ => ?_
        rw [pattern_bits]
        show (if (![xor (S 1) (xor (S 2) (S 3)), xor (T 0) (xor (S 2) (S 3)), xor (T 0) (xor (T 1) (S 3)), xor (T 0) (xor (T 1) (T 2))] : Fin 4 → Bool) mu = true then _ else _) = _
        cases (![xor (S 1) (xor (S 2) (S 3)), xor (T 0) (xor (S 2) (S 3)), xor (T 0) (xor (T 1) (S 3)), xor (T 0) (xor (T 1) (T 2))] : Fin 4 → Bool) mu <;> simp
      rw [hm, hB]
      clear_value S T
      clear hz hm hB h
      rw [← Int.cast_mul, ← sign_key]
      simp only [smul_eq_mul]
      push_cast
      ring
    · rw [if_neg (fun hh => h (hz.1 hh)), if_neg h]
      simp

end

end Nissa.Stag
