import Verif.Color.ComplexMem

/-! # C31: the complex kernels -/

set_option linter.all false

namespace Nissa.Cplx

open Complex ComplexConjugate

theorem put_same (m : Mem) (p : ℕ) (v : ℝ) : put m p v p = v := by simp [put]
theorem put_ne (m : Mem) {p q : ℕ} (v : ℝ) (h : q ≠ p) : put m p v q = m q := by simp [put, h]

macro "frame" : tactic => `(tactic| (intro q h1 h2; simp [put, h1, h2]))

macro "case2" op:ident : tactic => `(tactic| (
  intro a b m hab
  refine ⟨?_, ?_⟩
  · rcases hab with h | h
    · subst h
      apply Complex.ext <;> simp [$op:ident, val, put] <;> ring
    · have e1 : b ≠ a := by omega
      have e2 : b ≠ a + 1 := by omega
      have e3 : b + 1 ≠ a := by omega
      apply Complex.ext <;> simp [$op:ident, val, put, e1, e2, e3] <;> ring
  · intro q h1 h2
    simp [$op:ident, put, h1, h2]))

macro "case3" op:ident : tactic => `(tactic| (
  intro a b c m hab hac
  refine ⟨?_, ?_⟩
  · rcases hab with h | h
    · subst h
      rcases hac with g | g
      · subst g
        apply Complex.ext <;> simp [$op:ident, val, put] <;> ring
      · have f1 : c ≠ a := by omega
        have f2 : c ≠ a + 1 := by omega
        have f3 : c + 1 ≠ a := by omega
        apply Complex.ext <;> simp [$op:ident, val, put, f1, f2, f3] <;> ring
    · have e1 : b ≠ a := by omega
      have e2 : b ≠ a + 1 := by omega
      have e3 : b + 1 ≠ a := by omega
      rcases hac with g | g
      · subst g
        apply Complex.ext <;> simp [$op:ident, val, put, e1, e2, e3] <;> ring
      · have f1 : c ≠ a := by omega
        have f2 : c ≠ a + 1 := by omega
        have f3 : c + 1 ≠ a := by omega
        apply Complex.ext <;> simp [$op:ident, val, put, e1, e2, e3, f1, f2, f3] <;> ring
  · intro q h1 h2
    simp [$op:ident, put, h1, h2]))

macro "case3a" op:ident : tactic => `(tactic| (
  intro a b c m h g
  refine ⟨?_, ?_⟩
  · have e1 : b ≠ a := by unfold Apart at h; omega
    have e2 : b ≠ a + 1 := by unfold Apart at h; omega
    have e3 : b + 1 ≠ a := by unfold Apart at h; omega
    have f1 : c ≠ a := by unfold Apart at g; omega
    have f2 : c ≠ a + 1 := by unfold Apart at g; omega
    have f3 : c + 1 ≠ a := by unfold Apart at g; omega
    apply Complex.ext <;> simp [$op:ident, val, put, e1, e2, e3, f1, f2, f3] <;> ring
  · intro q h1 h2
    simp [$op:ident, put, h1, h2]))

/-- One-input kernels: correct whether or not output and input are the same variable. -/
theorem C31_complex_one_input (r : ℝ) :
    Does2 complex_copy (fun _ y => y) ∧
    Does2 complex_conj (fun _ y => conj y) ∧
    Does2 complex_minus_conj (fun _ y => -conj y) ∧
    Does2 (complex_prod_double r) (fun _ y => y * r) ∧
    Does2 (complex_prod_idouble r) (fun _ y => y * (I * r)) ∧
    Does2 (complex_summ_the_prod_double r) (fun x y => x + y * r) ∧
    Does2 (complex_subt_the_prod_double r) (fun x y => x - y * r) ∧
    Does2 (complex_summ_the_prod_idouble r) (fun x y => x + y * (I * r)) ∧
    Does2 (complex_subt_the_prod_idouble r) (fun x y => x - y * (I * r)) ∧
    Does2 safe_complex_prod_i (fun _ y => I * y) ∧
    Does2 safe_complex_prod_minus_i (fun _ y => -I * y) ∧
    Does2 complex_prodassign (fun x y => x * y) ∧
    Does2 complex_reciprocal (fun _ y => y⁻¹) := by
  refine ⟨?_, ?_, ?_, ?_, ?_, ?_, ?_, ?_, ?_, ?_, ?_, ?_, ?_⟩
  · case2 complex_copy
  · case2 complex_conj
  · case2 complex_minus_conj
  · case2 complex_prod_double
  · case2 complex_prod_idouble
  · case2 complex_summ_the_prod_double
  · case2 complex_subt_the_prod_double
  · case2 complex_summ_the_prod_idouble
  · case2 complex_subt_the_prod_idouble
  · case2 safe_complex_prod_i
  · case2 safe_complex_prod_minus_i
  · unfold complex_prodassign
    case2 safe_complex_prod
  · unfold complex_reciprocal
    intro a b m hab
    refine ⟨?_, ?_⟩
    · rcases hab with h | h
      · subst h
        apply Complex.ext <;> simp [val, put, Complex.inv_re, Complex.inv_im, Complex.normSq_mk]
      · have e1 : b ≠ a := by omega
        have e2 : b ≠ a + 1 := by omega
        have e3 : b + 1 ≠ a := by omega
        apply Complex.ext <;> simp [val, put, e1, e2, e3, Complex.inv_re, Complex.inv_im, Complex.normSq_mk]
    · intro q h1 h2
      simp [put, h1, h2]

/-- Two-input kernels that are correct whichever of the three variables coincide. -/
theorem C31_complex_any_alias (cb cc : ℝ) :
    Does3 complex_summ (fun _ y z => y + z) ∧
    Does3 complex_summ_conj1 (fun _ y z => conj y + z) ∧
    Does3 complex_summ_conj2 (fun _ y z => y + conj z) ∧
    Does3 complex_subt (fun _ y z => y - z) ∧
    Does3 complex_subt_conj1 (fun _ y z => conj y - z) ∧
    Does3 complex_subt_conj2 (fun _ y z => y - conj z) ∧
    Does3 (complex_linear_comb cb cc) (fun _ y z => y * cb + z * cc) ∧
    Does3 complex_summ_the_prod (fun x y z => x + y * z) ∧
    Does3 complex_subt_the_prod (fun x y z => x - y * z) ∧
    Does3 complex_summ_the_conj1_prod (fun x y z => x + conj y * z) ∧
    Does3 complex_summ_the_conj2_prod (fun x y z => x + y * conj z) ∧
    Does3 complex_summ_the_conj_conj_prod (fun x y z => x + conj y * conj z) ∧
    Does3 complex_subt_the_conj1_prod (fun x y z => x - conj y * z) ∧
    Does3 complex_subt_the_conj2_prod (fun x y z => x - y * conj z) ∧
    Does3 complex_subt_the_conj_conj_prod (fun x y z => x - conj y * conj z) ∧
    Does3 safe_complex_prod (fun _ y z => y * z) ∧
    Does3 safe_complex_prod_minus (fun _ y z => -(y * z)) ∧
    Does3 safe_complex_conj1_prod (fun _ y z => conj y * z) ∧
    Does3 safe_complex_conj1_prod_minus (fun _ y z => -(conj y * z)) ∧
    Does3 safe_complex_conj2_prod (fun _ y z => y * conj z) ∧
    Does3 safe_complex_conj2_prod_minus (fun _ y z => -(y * conj z)) := by
  refine ⟨?_, ?_, ?_, ?_, ?_, ?_, ?_, ?_, ?_, ?_, ?_, ?_, ?_, ?_, ?_, ?_, ?_, ?_, ?_, ?_, ?_⟩
  · case3 complex_summ
  · unfold complex_summ_conj1; case3 complex_summ_conj2
  · case3 complex_summ_conj2
  · case3 complex_subt
  · case3 complex_subt_conj1
  · case3 complex_subt_conj2
  · case3 complex_linear_comb
  · case3 complex_summ_the_prod
  · case3 complex_subt_the_prod
  · unfold complex_summ_the_conj1_prod; case3 complex_summ_the_conj2_prod
  · case3 complex_summ_the_conj2_prod
  · case3 complex_summ_the_conj_conj_prod
  · unfold complex_subt_the_conj1_prod; case3 complex_subt_the_conj2_prod
  · case3 complex_subt_the_conj2_prod
  · case3 complex_subt_the_conj_conj_prod
  · case3 safe_complex_prod
  · case3 safe_complex_prod_minus
  · unfold safe_complex_conj1_prod; case3 safe_complex_conj2_prod
  · unfold safe_complex_conj1_prod_minus; case3 safe_complex_conj2_prod_minus
  · case3 safe_complex_conj2_prod
  · case3 safe_complex_conj2_prod_minus

/-- The `unsafe` kernels, those with a factor `i`, and `a=b±ic`: correct if the output is not one of the inputs. -/
theorem C31_complex_no_alias :
    Does3Apart unsafe_complex_prod (fun _ y z => y * z) ∧
    Does3Apart unsafe_complex_prod_minus (fun _ y z => -(y * z)) ∧
    Does3Apart unsafe_complex_conj1_prod (fun _ y z => conj y * z) ∧
    Does3Apart unsafe_complex_conj1_prod_minus (fun _ y z => -(conj y * z)) ∧
    Does3Apart unsafe_complex_conj2_prod (fun _ y z => y * conj z) ∧
    Does3Apart unsafe_complex_conj2_prod_minus (fun _ y z => -(y * conj z)) ∧
    Does3Apart unsafe_complex_conj_conj_prod (fun _ y z => conj y * conj z) ∧
    Does3Apart unsafe_complex_conj_conj_prod_minus (fun _ y z => -(conj y * conj z)) ∧
    Does3Apart complex_isumm (fun _ y z => y + I * z) ∧
    Does3Apart complex_isubt (fun _ y z => y - I * z) ∧
    Does3Apart complex_summ_the_prod_i (fun x y z => x + I * (y * z)) ∧
    Does3Apart complex_subt_the_prod_i (fun x y z => x - I * (y * z)) ∧
    Does3Apart complex_summ_the_conj2_prod_i (fun x y z => x + I * (y * conj z)) ∧
    Does3Apart complex_subt_the_conj2_prod_i (fun x y z => x - I * (y * conj z)) ∧
    Does3Apart complex_summ_the_conj_conj_prod_i (fun x y z => x + I * (conj y * conj z)) ∧
    Does3Apart complex_subt_the_conj_conj_prod_i (fun x y z => x - I * (conj y * conj z)) := by
  refine ⟨?_, ?_, ?_, ?_, ?_, ?_, ?_, ?_, ?_, ?_, ?_, ?_, ?_, ?_, ?_, ?_⟩
  · case3a unsafe_complex_prod
  · case3a unsafe_complex_prod_minus
  · unfold unsafe_complex_conj1_prod; intro a b c m h g; revert a b c m; case3a unsafe_complex_conj2_prod
  · unfold unsafe_complex_conj1_prod_minus; case3a unsafe_complex_conj2_prod_minus
  · case3a unsafe_complex_conj2_prod
  · case3a unsafe_complex_conj2_prod_minus
  · case3a unsafe_complex_conj_conj_prod
  · case3a unsafe_complex_conj_conj_prod_minus
  · case3a complex_isumm
  · case3a complex_isubt
  · case3a complex_summ_the_prod_i
  · case3a complex_subt_the_prod_i
  · case3a complex_summ_the_conj2_prod_i
  · case3a complex_subt_the_conj2_prod_i
  · case3a complex_summ_the_conj_conj_prod_i
  · case3a complex_subt_the_conj_conj_prod_i

/-- `a+=ib`, `a-=ib` for distinct variables. -/
theorem C31_complex_isummassign (a b : ℕ) (m : Mem) (h : Apart a b) :
    val (complex_isummassign a b m) a = val m a + I * val m b ∧
    val (complex_isubtassign a b m) a = val m a - I * val m b := by
  have e1 : b ≠ a := by unfold Apart at h; omega
  have e2 : b ≠ a + 1 := by unfold Apart at h; omega
  have e3 : b + 1 ≠ a := by unfold Apart at h; omega
  constructor <;> apply Complex.ext <;>
    simp [complex_isummassign, complex_isubtassign, complex_isumm, complex_isubt, val, put, e1, e2, e3] <;> ring

/-- a memory holding `1+i` in cells 0,1 and `1+2i` in cells 2,3 -/
def testMem : Mem := fun q => if q = 3 then 2 else 1

/-- The hypothesis on distinct variables is needed: with the output equal to an input each family returns a wrong
number — also `complex_isummassign(a,a)` and `complex_summ_the_prod_i(a,a,b)`, whose names do not say `unsafe`. -/
theorem C31_violated_alias :
    (∃ m a c, Apart a c ∧ val (unsafe_complex_prod a a c m) a ≠ val m a * val m c) ∧
    (∃ m a c, Apart a c ∧ val (unsafe_complex_conj2_prod a a c m) a ≠ val m a * conj (val m c)) ∧
    (∃ m a, val (complex_isummassign a a m) a ≠ val m a + I * val m a) ∧
    (∃ m a c, Apart a c ∧ val (complex_summ_the_prod_i a a c m) a ≠ val m a + I * (val m a * val m c)) := by
  have hap : Apart 0 2 := Or.inl (by norm_num)
  refine ⟨⟨testMem, 0, 2, hap, ?_⟩, ⟨testMem, 0, 2, hap, ?_⟩, ⟨testMem, 0, ?_⟩, ⟨testMem, 0, 2, hap, ?_⟩⟩
  · intro h
    have := congrArg Complex.im h
    norm_num [unsafe_complex_prod, val, put, testMem] at this
  · intro h
    have := congrArg Complex.im h
    norm_num [unsafe_complex_conj2_prod, val, put, testMem] at this
  · intro h
    have := congrArg Complex.im h
    norm_num [complex_isummassign, complex_isumm, val, put, testMem] at this
  · intro h
    have := congrArg Complex.re h
    norm_num [complex_summ_the_prod_i, val, put, testMem] at this

/-- The two kernels with `conj1` and `i` in their name miss the factor `i`, even on distinct variables. -/
theorem C31_violated_conj1_prod_i :
    Does3 complex_summ_the_conj1_prod_i (fun x y z => x + conj y * z) ∧
    Does3 complex_subt_the_conj1_prod_i (fun x y z => x - conj y * z) ∧
    ¬ Does3Apart complex_summ_the_conj1_prod_i (fun x y z => x + I * (conj y * z)) ∧
    ¬ Does3Apart complex_subt_the_conj1_prod_i (fun x y z => x - I * (conj y * z)) := by
  refine ⟨?_, ?_, ?_, ?_⟩
  · unfold complex_summ_the_conj1_prod_i; case3 complex_summ_the_conj2_prod
  · unfold complex_subt_the_conj1_prod_i; case3 complex_subt_the_conj2_prod
  · intro h
    have := congrArg Complex.re (h 4 0 2 testMem (Or.inr (by norm_num)) (Or.inr (by norm_num))).1
    norm_num [complex_summ_the_conj1_prod_i, complex_summ_the_conj2_prod, val, put, testMem] at this
  · intro h
    have := congrArg Complex.re (h 4 0 2 testMem (Or.inr (by norm_num)) (Or.inr (by norm_num))).1
    norm_num [complex_subt_the_conj1_prod_i, complex_subt_the_conj2_prod, val, put, testMem] at this

/-- `complex_sqrt` returns a square root of any non-zero number, also in place, and no number for zero. -/
theorem C31_complex_sqrt (a b : ℕ) (m : Mem) (hab : Same_or_apart a b) :
    (val m b = 0 → complex_sqrt a b m = none) ∧
    (val m b ≠ 0 → ∃ m', complex_sqrt a b m = some m' ∧ val m' a ^ 2 = val m b ∧ OnlyAt a m m') := by
  set x := m b with hx
  set y := m (b+1) with hy
  have hv : val m b = ⟨x, y⟩ := rfl
  set c := √(x * x + y * y) with hc
  have hnn : 0 ≤ x * x + y * y := add_nonneg (mul_self_nonneg _) (mul_self_nonneg _)
  have hcc : c * c = x * x + y * y := Real.mul_self_sqrt hnn
  constructor
  · intro h0
    rw [hv] at h0
    have hx0 : x = 0 := congrArg Complex.re h0
    have hy0 : y = 0 := congrArg Complex.im h0
    have : c = 0 := by rw [hc, hx0, hy0]; simp
    unfold complex_sqrt
    simp only [← hx, ← hy, ← hc, this, if_true]
  · intro h0
    have hcne : c ≠ 0 := by
      intro hc0
      rw [hc0] at hcc
      apply h0
      rw [hv]
      apply Complex.ext
      · show x = 0; nlinarith
      · show y = 0; nlinarith
    have hcpos : 0 < c := lt_of_le_of_ne (Real.sqrt_nonneg _) (Ne.symm hcne)
    have hle : |x| ≤ c := by
      rw [hc]; apply Real.abs_le_sqrt; nlinarith
    have hxle := abs_le.1 hle
    set p := √(0.5 * (1 - x / c)) with hp
    set q := √(0.5 * (1 + x / c)) with hq
    have hpp : p * p = 0.5 * (1 - x / c) := Real.mul_self_sqrt (by
      have : x / c ≤ 1 := (div_le_one hcpos).2 hxle.2
      norm_num; linarith)
    have hqq : q * q = 0.5 * (1 + x / c) := Real.mul_self_sqrt (by
      have : -1 ≤ x / c := by rw [le_div_iff₀ hcpos]; linarith
      norm_num; linarith)
    set d := √c with hd
    have hdd : d * d = c := Real.mul_self_sqrt hcpos.le
    have hp0 : 0 ≤ p := Real.sqrt_nonneg _
    have hq0 : 0 ≤ q := Real.sqrt_nonneg _
    have hre : (d * q) * (d * q) - (d * p) * (d * p) = x := by
      have : (d * q) * (d * q) - (d * p) * (d * p) = (d * d) * (q * q - p * p) := by ring
      rw [this, hdd, hqq, hpp]; field_simp; ring
    have him : 2 * ((d * q) * (d * p)) = |y| := by
      have h1 : 2 * ((d * q) * (d * p)) = (2 * c) * (q * p) := by rw [← hdd]; ring
      have h2 : (2 * c * (q * p)) ^ 2 = y ^ 2 := by
        have : (2 * c * (q * p)) ^ 2 = 4 * (c * c) * ((q * q) * (p * p)) := by ring
        rw [this, hqq, hpp]
        have h3 : 4 * (c * c) * (0.5 * (1 + x / c) * (0.5 * (1 - x / c))) = c * c - x * x := by
          field_simp; ring
        rw [h3, hcc]; ring
      rw [h1, ← Real.sqrt_sq_eq_abs, ← h2, Real.sqrt_sq (by positivity)]
    by_cases hy0 : 0 ≤ y
    · refine ⟨put (put m a (d * q)) (a+1) (d * p), ?_, ?_, ?_⟩
      · unfold complex_sqrt
        simp only [← hx, ← hy, ← hc, if_neg hcne, if_pos hy0, ← hp, ← hq, ← hd]
      · rw [hv]
        rw [abs_of_nonneg hy0] at him
        apply Complex.ext
        · simp [val, put, pow_two]; linarith
        · simp [val, put, pow_two]; linarith
      · intro t h1 h2; simp [put, h1, h2]
    · refine ⟨put (put m a (-d * q)) (a+1) (d * p), ?_, ?_, ?_⟩
      · unfold complex_sqrt
        simp only [← hx, ← hy, ← hc, if_neg hcne, if_neg hy0, ← hp, ← hq, ← hd]
      · rw [hv]
        rw [abs_of_neg (not_le.1 hy0)] at him
        apply Complex.ext
        · simp [val, put, pow_two]; linarith
        · simp [val, put, pow_two]; linarith
      · intro t h1 h2; simp [put, h1, h2]

/-- The real valued kernels. -/
theorem C31_complex_reals (a b : ℕ) (m : Mem) :
    real_part_of_complex_prod a b m = (val m a * val m b).re ∧
    real_part_of_complex_scalar_prod a b m = (conj (val m a) * val m b).re ∧
    complex_norm2 a m = Complex.normSq (val m a) := by
  refine ⟨?_, ?_, ?_⟩
  · simp [real_part_of_complex_prod, val]
  · simp [real_part_of_complex_scalar_prod, val]
  · simp [complex_norm2, val, Complex.normSq_mk]

/-- The hypotheses of the theorems above are met by variables laid out one after the other. -/
example : Apart 0 2 ∧ Same_or_apart 0 0 ∧ Same_or_apart 0 2 ∧ val testMem 2 = 1 + 2 * I := by
  refine ⟨Or.inl (by norm_num), Or.inl rfl, Or.inr (Or.inl (by norm_num)), ?_⟩
  apply Complex.ext <;> norm_num [val, testMem]

end Nissa.Cplx
