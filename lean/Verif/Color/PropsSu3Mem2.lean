import Verif.Color.PropsSu3Mem

/-! # C31: the colour matrix kernels (statements) -/

set_option linter.all false

namespace Nissa.Su3

open Nissa.Cplx Complex ComplexConjugate Matrix

theorem d_summ : Does3 complex_summ (fun _ y z => y + z) := (C31_complex_any_alias 0 0).1
theorem d_summ_conj2 : Does3 complex_summ_conj2 (fun _ y z => y + conj z) := (C31_complex_any_alias 0 0).2.2.1
theorem d_subt : Does3 complex_subt (fun _ y z => y - z) := (C31_complex_any_alias 0 0).2.2.2.1
theorem d_subt_conj2 : Does3 complex_subt_conj2 (fun _ y z => y - conj z) := (C31_complex_any_alias 0 0).2.2.2.2.2.1
theorem d_stp : Does3 complex_summ_the_prod (fun x y z => x + y * z) := (C31_complex_any_alias 0 0).2.2.2.2.2.2.2.1
theorem d_sbtp : Does3 complex_subt_the_prod (fun x y z => x - y * z) := (C31_complex_any_alias 0 0).2.2.2.2.2.2.2.2.1
theorem d_stp1 : Does3 complex_summ_the_conj1_prod (fun x y z => x + conj y * z) :=
  (C31_complex_any_alias 0 0).2.2.2.2.2.2.2.2.2.1
theorem d_stp2 : Does3 complex_summ_the_conj2_prod (fun x y z => x + y * conj z) :=
  (C31_complex_any_alias 0 0).2.2.2.2.2.2.2.2.2.2.1
theorem d_stp12 : Does3 complex_summ_the_conj_conj_prod (fun x y z => x + conj y * conj z) :=
  (C31_complex_any_alias 0 0).2.2.2.2.2.2.2.2.2.2.2.1
theorem d_sbtp1 : Does3 complex_subt_the_conj1_prod (fun x y z => x - conj y * z) :=
  (C31_complex_any_alias 0 0).2.2.2.2.2.2.2.2.2.2.2.2.1
theorem d_sbtp2 : Does3 complex_subt_the_conj2_prod (fun x y z => x - y * conj z) :=
  (C31_complex_any_alias 0 0).2.2.2.2.2.2.2.2.2.2.2.2.2.1
theorem d_sbtp2' : Does3 complex_subt_the_conj2_prod (fun x y z => x + -(y * conj z)) := by
  simpa only [sub_eq_add_neg] using d_sbtp2
theorem d_sbtp1' : Does3 complex_subt_the_conj1_prod (fun x y z => x + -(conj y * z)) := by
  simpa only [sub_eq_add_neg] using d_sbtp1
theorem d_sbtp' : Does3 complex_subt_the_prod (fun x y z => x + -(y * z)) := by
  simpa only [sub_eq_add_neg] using d_sbtp
theorem u_p : Does3Apart unsafe_complex_prod (fun _ y z => y * z) := C31_complex_no_alias.1
theorem u_p1 : Does3Apart unsafe_complex_conj1_prod (fun _ y z => conj y * z) := C31_complex_no_alias.2.2.1
theorem u_p2 : Does3Apart unsafe_complex_conj2_prod (fun _ y z => y * conj z) := C31_complex_no_alias.2.2.2.2.1
theorem u_p12 : Does3Apart unsafe_complex_conj_conj_prod (fun _ y z => conj y * conj z) := C31_complex_no_alias.2.2.2.2.2.2.1

theorem prod_ok : MDoesApart unsafe_su3_prod_su3 (fun _ B C => B * C) := by
  intro a b c m hb hc
  obtain ⟨h1, h2⟩ := prod_does unsafe_complex_prod complex_summ_the_prod (fun y z => y * z) u_p d_stp
    (fun i j k => (i, k)) (fun i j k => (k, j)) a b c m hb hc
  refine ⟨?_, h2⟩
  ext i j
  beta_reduce
  rw [Matrix.mul_apply]
  exact h1 i j

theorem prod_dag_ok : MDoesApart unsafe_su3_prod_su3_dag (fun _ B C => B * Cᴴ) := by
  intro a b c m hb hc
  obtain ⟨h1, h2⟩ := prod_does unsafe_complex_conj2_prod complex_summ_the_conj2_prod (fun y z => y * conj z) u_p2 d_stp2
    (fun i j k => (i, k)) (fun i j k => (j, k)) a b c m hb hc
  refine ⟨?_, h2⟩
  ext i j
  beta_reduce
  rw [Matrix.mul_apply]
  exact h1 i j

theorem dag_prod_dag_ok : MDoesApart unsafe_su3_dag_prod_su3_dag (fun _ B C => Bᴴ * Cᴴ) := by
  intro a b c m hb hc
  obtain ⟨h1, h2⟩ := prod_does unsafe_complex_conj_conj_prod complex_summ_the_conj_conj_prod (fun y z => conj y * conj z)
    u_p12 d_stp12 (fun i j k => (k, i)) (fun i j k => (j, k)) a b c m hb hc
  refine ⟨?_, h2⟩
  ext i j
  beta_reduce
  rw [Matrix.mul_apply]
  exact h1 i j

theorem dag_prod_full (a b c : ℕ) : unsafe_su3_dag_prod_su3 3 a b c = loop2 fun i j m =>
    [1, 2].foldl (fun m k => complex_summ_the_conj1_prod (el a i j) (el b k i) (el c k j) m)
      (unsafe_complex_conj1_prod (el a i j) (el b 0 i) (el c 0 j) m) := rfl

theorem dag_prod_ok : MDoesApart (unsafe_su3_dag_prod_su3 3) (fun _ B C => Bᴴ * C) := by
  intro a b c m hb hc
  rw [dag_prod_full]
  obtain ⟨h1, h2⟩ := prod_does unsafe_complex_conj1_prod complex_summ_the_conj1_prod (fun y z => conj y * z)
    u_p1 d_stp1 (fun i j k => (k, i)) (fun i j k => (k, j)) a b c m hb hc
  refine ⟨?_, h2⟩
  ext i j
  beta_reduce
  rw [Matrix.mul_apply]
  exact h1 i j

/-- The products, with any dagger: correct if the output overlaps no input. -/
theorem C31_su3_products :
    MDoesApart unsafe_su3_prod_su3 (fun _ B C => B * C) ∧
    MDoesApart (unsafe_su3_dag_prod_su3 3) (fun _ B C => Bᴴ * C) ∧
    MDoesApart unsafe_su3_prod_su3_dag (fun _ B C => B * Cᴴ) ∧
    MDoesApart unsafe_su3_dag_prod_su3_dag (fun _ B C => Bᴴ * Cᴴ) ∧
    MDoesApart su3_summ_the_prod_su3 (fun A B C => A + B * C) ∧
    MDoesApart su3_summ_the_dag_prod_su3 (fun A B C => A + Bᴴ * C) ∧
    MDoesApart su3_summ_the_prod_su3_dag (fun A B C => A + B * Cᴴ) ∧
    MDoesApart su3_subt_the_prod_su3_dag (fun A B C => A - B * Cᴴ) := by
  refine ⟨prod_ok, dag_prod_ok, prod_dag_ok, dag_prod_dag_ok, ?_, ?_, ?_, ?_⟩
  · intro a b c m hb hc
    obtain ⟨h1, h2⟩ := acc_does complex_summ_the_prod (fun y z => y * z) d_stp
      (fun i j k => (i, k)) (fun i j k => (k, j)) a b c m hb hc
    refine ⟨?_, h2⟩
    ext i j
    beta_reduce
    rw [Matrix.add_apply, Matrix.mul_apply]
    exact h1 i j
  · intro a b c m hb hc
    obtain ⟨h1, h2⟩ := acc_does complex_summ_the_conj1_prod (fun y z => conj y * z) d_stp1
      (fun i j k => (k, i)) (fun i j k => (k, j)) a b c m hb hc
    refine ⟨?_, h2⟩
    ext i j
    beta_reduce
    rw [Matrix.add_apply, Matrix.mul_apply]
    exact h1 i j
  · intro a b c m hb hc
    obtain ⟨h1, h2⟩ := acc_does complex_summ_the_conj2_prod (fun y z => y * conj z) d_stp2
      (fun i j k => (i, k)) (fun i j k => (j, k)) a b c m hb hc
    refine ⟨?_, h2⟩
    ext i j
    beta_reduce
    rw [Matrix.add_apply, Matrix.mul_apply]
    exact h1 i j
  · intro a b c m hb hc
    obtain ⟨h1, h2⟩ := acc_does complex_subt_the_conj2_prod (fun y z => -(y * conj z)) d_sbtp2'
      (fun i j k => (i, k)) (fun i j k => (j, k)) a b c m hb hc
    refine ⟨?_, h2⟩
    ext i j
    beta_reduce
    rw [Matrix.sub_apply, Matrix.mul_apply, sub_eq_add_neg, ← Finset.sum_neg_distrib]
    exact h1 i j

/-- The `safe` products: correct whichever arguments coincide. -/
theorem C31_su3_safe_products :
    MDoesSafe safe_su3_prod_su3 (fun B C => B * C) ∧
    MDoesSafe safe_su3_dag_prod_su3 (fun B C => Bᴴ * C) ∧
    MDoesSafe safe_su3_prod_su3_dag (fun B C => B * Cᴴ) ∧
    MDoesSafe safe_su3_dag_prod_su3_dag (fun B C => Bᴴ * Cᴴ) :=
  ⟨safe_of_apart _ _ prod_ok, safe_of_apart _ _ dag_prod_ok, safe_of_apart _ _ prod_dag_ok, safe_of_apart _ _ dag_prod_dag_ok⟩

/-- `a*=b`, also for `a` and `b` the same matrix -/
theorem C31_su3_prodassign (tmp a b : ℕ) (m : Mem) (ha : MApart tmp a) (hb : MApart tmp b) :
    mat (su3_prodassign_su3 tmp a b m) a = mat m a * mat m b :=
  (C31_su3_safe_products.1 tmp a a b m ha ha hb).1

/-- Sums, differences, products with numbers: correct whichever arguments coincide. -/
theorem C31_su3_linear (r : ℝ) :
    MDoes su3_summ (fun _ B C => B + C) ∧ MDoes su3_subt (fun _ B C => B - C) ∧
    (∀ a b m, MSame a b → mat (su3_copy a b m) a = mat m b ∧
      mat (su3_prod_double r a b m) a = (r : ℂ) • mat m b ∧
      mat (su3_prod_idouble r a b m) a = (I * r) • mat m b ∧
      mat (su3_summ_the_prod_double r a b m) a = mat m a + (r : ℂ) • mat m b ∧
      mat (su3_summ_the_prod_idouble r a b m) a = mat m a + (I * r) • mat m b) := by
  obtain ⟨q1, q2, q3, q4, q5, q6, q7, q8, q9, -⟩ := C31_complex_one_input r
  refine ⟨?_, ?_, ?_⟩
  · intro a b c m hb hc
    obtain ⟨h1, h2⟩ := elem3 complex_summ _ d_summ a b c m hb hc
    exact ⟨by ext i j; exact h1 i j, h2⟩
  · intro a b c m hb hc
    obtain ⟨h1, h2⟩ := elem3 complex_subt _ d_subt a b c m hb hc
    exact ⟨by ext i j; exact h1 i j, h2⟩
  · intro a b m hb
    refine ⟨(copy_spec a b m hb).1, ?_, ?_, ?_, ?_⟩
    · ext i j; rw [Matrix.smul_apply, smul_eq_mul, mul_comm]; exact (elem2 _ _ q4 a b m hb).1 i j
    · ext i j; rw [Matrix.smul_apply, smul_eq_mul, mul_comm]; exact (elem2 _ _ q5 a b m hb).1 i j
    · ext i j; rw [Matrix.add_apply, Matrix.smul_apply, smul_eq_mul, mul_comm]; exact (elem2 _ _ q6 a b m hb).1 i j
    · ext i j; rw [Matrix.add_apply, Matrix.smul_apply, smul_eq_mul, mul_comm]; exact (elem2 _ _ q8 a b m hb).1 i j

/-- Hermitian conjugate and transposed, sums with the conjugate. -/
theorem C31_su3_hermitian :
    (∀ a b m, MApart a b → mat (unsafe_su3_hermitian a b m) a = (mat m b)ᴴ ∧ mat (unsafe_su3_transpose a b m) a = (mat m b)ᵀ) ∧
    (∀ tmp a b m, MApart tmp a → MApart tmp b →
      mat (safe_su3_hermitian tmp a b m) a = (mat m b)ᴴ ∧ mat (safe_su3_transpose tmp a b m) a = (mat m b)ᵀ) ∧
    (∀ a b c m, MSame a b → MApart a c → mat (unsafe_su3_summ_su3_dag a b c m) a = mat m b + (mat m c)ᴴ ∧
      mat (unsafe_su3_subt_su3_dag a b c m) a = mat m b - (mat m c)ᴴ) ∧
    (∀ a b m, MApart a b → mat (su3_summassign_su3_dag a b m) a = mat m a + (mat m b)ᴴ) := by
  obtain ⟨q1, q2, -⟩ := C31_complex_one_input 0
  have hh : ∀ a b m, MApart a b → mat (unsafe_su3_hermitian a b m) a = (mat m b)ᴴ ∧
      mat (unsafe_su3_transpose a b m) a = (mat m b)ᵀ := by
    intro a b m hb
    constructor
    · ext i j; exact (tran2 _ _ q2 a b m hb).1 i j
    · ext i j; exact (tran2 _ _ q1 a b m hb).1 i j
  have hs : ∀ a b c m, MSame a b → MApart a c → mat (unsafe_su3_summ_su3_dag a b c m) a = mat m b + (mat m c)ᴴ ∧
      mat (unsafe_su3_subt_su3_dag a b c m) a = mat m b - (mat m c)ᴴ := by
    intro a b c m hb hc
    constructor
    · ext i j; exact (tran3 _ _ d_summ_conj2 a b c m hb hc).1 i j
    · ext i j; exact (tran3 _ _ d_subt_conj2 a b c m hb hc).1 i j
  refine ⟨hh, ?_, hs, fun a b m hb => (hs a a b m (Or.inl rfl) hb).1⟩
  intro tmp a b m ha hb
  have ha' : MSame a tmp := by right; unfold MApart Sep at *; omega
  constructor
  · unfold safe_su3_hermitian
    rw [(copy_spec a tmp _ ha').1, (hh tmp b m hb).1]
  · unfold safe_su3_transpose
    rw [(copy_spec a tmp _ ha').1, (hh tmp b m hb).2]

theorem el_num (p : ℕ) : el p 0 0 = p ∧ el p 0 1 = p + 2 ∧ el p 0 2 = p + 4 ∧ el p 1 0 = p + 6 ∧ el p 1 1 = p + 8 ∧
    el p 1 2 = p + 10 ∧ el p 2 0 = p + 12 ∧ el p 2 1 = p + 14 ∧ el p 2 2 = p + 16 := by
  refine ⟨rfl, rfl, rfl, rfl, rfl, rfl, rfl, rfl, rfl⟩

/-- the conjugate times a real, in place: the exchange of pairs is right without a local copy -/
theorem C31_su3_hermitian_in_place (r : ℝ) (a : ℕ) (m : Mem) :
    mat (safe_su3_hermitian_prod_double r a a m) a = (r : ℂ) • (mat m a)ᴴ := by
  obtain ⟨e00, e01, e02, e10, e11, e12, e20, e21, e22⟩ := el_num a
  ext i j
  have hf : cols.filter ((0 : Fin 3) < ·) = [1, 2] := by decide
  have hf1 : cols.filter ((1 : Fin 3) < ·) = [2] := by decide
  have hf2 : cols.filter ((2 : Fin 3) < ·) = [] := by decide
  fin_cases i <;> fin_cases j <;>
    simp [safe_su3_hermitian_prod_double, cols, hermPairStep, hermDiagStep, mat, val, put, Matrix.of_apply,
      e00, e01, e02, e10, e11, e12, e20, e21, e22, Complex.ext_iff, Nat.add_assoc]

/-! ### trace and determinant -/

theorem C31_su3_trace (tr p : ℕ) (m : Mem) (h : Sep tr 2 p 18) :
    val (su3_trace tr p m) tr = Matrix.trace (mat m p) ∧ su3_real_trace p m = (Matrix.trace (mat m p)).re := by
  have hap : ∀ i j, Apart tr (el p i j) := by
    intro i j; have := elb p i j; unfold Sep at h; unfold Apart; omega
  constructor
  · unfold su3_trace
    simp only [List.foldl_cons, List.foldl_nil]
    obtain ⟨q1, -⟩ := C31_complex_one_input 0
    have s0 := q1 tr (el p 0 0) m (Or.inr (hap 0 0))
    set m0 := complex_copy tr (el p 0 0) m
    have s1 := d_summ tr tr (el p 1 1) m0 (Or.inl rfl) (Or.inr (hap 1 1))
    set m1 := complex_summ tr tr (el p 1 1) m0
    have s2 := d_summ tr tr (el p 2 2) m1 (Or.inl rfl) (Or.inr (hap 2 2))
    have a1 := hap 1 1; have a2 := hap 2 2
    unfold Apart at a1 a2
    rw [s2.1, s1.1, val_onlyAt s1.2 (by omega), s0.1, val_onlyAt s0.2 (by omega), val_onlyAt s0.2 (by omega)]
    simp [Matrix.trace, Fin.sum_univ_three, mat]
  · simp [su3_real_trace, Matrix.trace, Fin.sum_univ_three, mat, val]

theorem C31_su3_trace_of_product (a b : ℕ) (m : Mem) :
    (∀ t, Sep t 2 a 18 → Sep t 2 b 18 → val (trace_su3_prod_su3 t a b m) t = Matrix.trace (mat m a * mat m b)) ∧
    real_part_of_trace_su3_prod_su3_dag a b m = (Matrix.trace (mat m a * (mat m b)ᴴ)).re := by
  constructor
  · intro t ha hb
    have hapa : ∀ i j, Apart t (el a i j) := by
      intro i j; have := elb a i j; unfold Sep at ha; unfold Apart; omega
    have hapb : ∀ i j, Apart t (el b i j) := by
      intro i j; have := elb b i j; unfold Sep at hb; unfold Apart; omega
    unfold trace_su3_prod_su3
    have h0 : val (complex_put_to_zero t m) t = 0 ∧ OnlyAt t m (complex_put_to_zero t m) := by
      constructor
      · apply Complex.ext <;> simp [complex_put_to_zero, complex_put_to_real, val, put]
      · intro q h1 h2; simp [complex_put_to_zero, complex_put_to_real, put, h1, h2]
    have hv : ∀ x, Apart t x → val (complex_put_to_zero t m) x = val m x := by
      intro x hx; exact val_onlyAt h0.2 (by unfold Apart at hx; omega)
    have := (acc_fold complex_summ_the_prod (fun y z => y * z) d_stp t (fun p : Fin 3 × Fin 3 => el a p.1 p.2)
      (fun p => el b p.2 p.1) pairs (complex_put_to_zero t m) (fun p _ => hapa _ _) (fun p _ => hapb _ _)).1
    rw [this, h0.1]
    simp only [pairs, List.map_cons, List.map_nil, List.sum_cons, List.sum_nil, hv _ (hapa _ _), hv _ (hapb _ _),
      Matrix.trace, Matrix.diag, Matrix.mul_apply, Fin.sum_univ_three, mat, Matrix.of_apply]
    ring
  · simp only [real_part_of_trace_su3_prod_su3_dag, pairs, List.foldl, real_part_of_complex_scalar_prod,
      Matrix.trace, Matrix.diag, Matrix.mul_apply, Fin.sum_univ_three, mat, Matrix.of_apply, Matrix.conjTranspose_apply,
      Complex.add_re]
    simp [val]
    ring

/-- The determinant routine computes the determinant (the local variable and the output overlap neither each other nor
the matrix). -/
theorem C31_su3_det (t d u : ℕ) (m : Mem) (htd : Apart t d) (ht : Sep t 2 u 18) (hd : Sep d 2 u 18) :
    val (su3_det t d u m) d = (mat m u).det := by
  have ta : ∀ i j, Apart t (el u i j) := by
    intro i j; have := elb u i j; unfold Sep at ht; unfold Apart; omega
  have da : ∀ i j, Apart d (el u i j) := by
    intro i j; have := elb u i j; unfold Sep at hd; unfold Apart; omega
  have hdt : Apart d t := by unfold Apart at *; omega
  have sep : ∀ {x y : ℕ}, Apart x y → x + 2 ≤ y ∨ y + 2 ≤ x := by intro x y h; unfold Apart at h; omega
  unfold su3_det
  have s1 := u_p t (el u 1 1) (el u 2 2) m (ta _ _) (ta _ _)
  set m1 := unsafe_complex_prod t (el u 1 1) (el u 2 2) m
  have v1 : ∀ i j, val m1 (el u i j) = val m (el u i j) := fun i j => val_onlyAt s1.2 (sep (ta i j))
  have s2 := d_sbtp t (el u 1 2) (el u 2 1) m1 (Or.inr (ta _ _)) (Or.inr (ta _ _))
  set m2 := complex_subt_the_prod t (el u 1 2) (el u 2 1) m1
  have v2 : ∀ i j, val m2 (el u i j) = val m (el u i j) := fun i j => (val_onlyAt s2.2 (sep (ta i j))).trans (v1 i j)
  have s3 := u_p d (el u 0 0) t m2 (da _ _) hdt
  set m3 := unsafe_complex_prod d (el u 0 0) t m2
  have v3 : ∀ i j, val m3 (el u i j) = val m (el u i j) := fun i j => (val_onlyAt s3.2 (sep (da i j))).trans (v2 i j)
  have s4 := u_p t (el u 1 2) (el u 2 0) m3 (ta _ _) (ta _ _)
  set m4 := unsafe_complex_prod t (el u 1 2) (el u 2 0) m3
  have v4 : ∀ i j, val m4 (el u i j) = val m (el u i j) := fun i j => (val_onlyAt s4.2 (sep (ta i j))).trans (v3 i j)
  have d4 : val m4 d = val m3 d := val_onlyAt s4.2 (sep htd)
  have s5 := d_sbtp t (el u 1 0) (el u 2 2) m4 (Or.inr (ta _ _)) (Or.inr (ta _ _))
  set m5 := complex_subt_the_prod t (el u 1 0) (el u 2 2) m4
  have v5 : ∀ i j, val m5 (el u i j) = val m (el u i j) := fun i j => (val_onlyAt s5.2 (sep (ta i j))).trans (v4 i j)
  have d5 : val m5 d = val m3 d := (val_onlyAt s5.2 (sep htd)).trans d4
  have s6 := d_stp d (el u 0 1) t m5 (Or.inr (da _ _)) (Or.inr hdt)
  set m6 := complex_summ_the_prod d (el u 0 1) t m5
  have v6 : ∀ i j, val m6 (el u i j) = val m (el u i j) := fun i j => (val_onlyAt s6.2 (sep (da i j))).trans (v5 i j)
  have s7 := u_p t (el u 1 0) (el u 2 1) m6 (ta _ _) (ta _ _)
  set m7 := unsafe_complex_prod t (el u 1 0) (el u 2 1) m6
  have v7 : ∀ i j, val m7 (el u i j) = val m (el u i j) := fun i j => (val_onlyAt s7.2 (sep (ta i j))).trans (v6 i j)
  have d7 : val m7 d = val m6 d := val_onlyAt s7.2 (sep htd)
  have s8 := d_sbtp t (el u 1 1) (el u 2 0) m7 (Or.inr (ta _ _)) (Or.inr (ta _ _))
  set m8 := complex_subt_the_prod t (el u 1 1) (el u 2 0) m7
  have v8 : ∀ i j, val m8 (el u i j) = val m (el u i j) := fun i j => (val_onlyAt s8.2 (sep (ta i j))).trans (v7 i j)
  have d8 : val m8 d = val m6 d := (val_onlyAt s8.2 (sep htd)).trans d7
  have s9 := d_stp d (el u 0 2) t m8 (Or.inr (da _ _)) (Or.inr hdt)
  rw [s9.1, d8, s6.1, d5, s3.1, s8.1, s7.1, s5.1, s4.1, s2.1, s1.1]
  simp only [v1, v2, v3, v4, v5, v6, v7, v8]
  rw [Matrix.det_fin_three]
  simp only [mat, Matrix.of_apply]
  ring

/-! ### what does not hold -/

/-- a memory with the matrix of ones at 0, and the matrix of elements `j` (column) at 18 -/
def tMem : Mem := fun q => if q % 2 = 1 then 0 else if q < 18 then 1 else (((q - 18) / 2) % 3 : ℕ)

/-- `unsafe` products and `a+=b*c`, `a+=b^+` (whose names do not warn) give wrong results if the output is also an
input. -/
theorem C31_violated_su3_alias :
    (∃ a c m, MApart a c ∧ mat (unsafe_su3_prod_su3 a a c m) a ≠ mat m a * mat m c) ∧
    (∃ a c m, MApart a c ∧ mat (su3_summ_the_prod_su3 a a c m) a ≠ mat m a + mat m a * mat m c) ∧
    (∃ a m, mat (su3_summassign_su3_dag a a m) a ≠ mat m a + (mat m a)ᴴ) := by
  obtain ⟨e00, e01, e02, e10, e11, e12, e20, e21, e22⟩ := el_num 0
  obtain ⟨f00, f01, f02, f10, f11, f12, f20, f21, f22⟩ := el_num 18
  refine ⟨⟨0, 18, tMem, Or.inl (by norm_num), ?_⟩, ⟨0, 18, tMem, Or.inl (by norm_num), ?_⟩, ⟨18, tMem, ?_⟩⟩
  · intro h
    have h' := congrArg Complex.re (congrFun (congrFun h 0) 1)
    beta_reduce
    rw [Matrix.mul_apply, Fin.sum_univ_three] at h'
    norm_num [unsafe_su3_prod_su3, loop2, pairs, unsafe_complex_prod, complex_summ_the_prod, mat, val, put, tMem,
      e00, e01, e02, e10, e11, e12, e20, e21, e22, f00, f01, f02, f10, f11, f12, f20, f21, f22] at h'
  · intro h
    have h' := congrArg Complex.re (congrFun (congrFun h 0) 2)
    beta_reduce
    rw [Matrix.add_apply, Matrix.mul_apply, Fin.sum_univ_three] at h'
    norm_num [su3_summ_the_prod_su3, loop2, pairs, cols, complex_summ_the_prod, mat, val, put, tMem,
      e00, e01, e02, e10, e11, e12, e20, e21, e22, f00, f01, f02, f10, f11, f12, f20, f21, f22] at h'
  · intro h
    have h' := congrArg Complex.re (congrFun (congrFun h 2) 1)
    beta_reduce
    rw [Matrix.add_apply, Matrix.conjTranspose_apply] at h'
    norm_num [su3_summassign_su3_dag, unsafe_su3_summ_su3_dag, loop2, pairs, complex_summ_conj2, mat, val, put, tMem,
      e00, e01, e02, e10, e11, e12, e20, e21, e22, f00, f01, f02, f10, f11, f12, f20, f21, f22] at h'

/-- Asked for only two rows, `b^+ c` drops the last term of the sums: the rows returned are wrong. -/
theorem C31_violated_dag_prod_rows : ∃ a b c m, MApart a b ∧ MApart a c ∧
    mat (unsafe_su3_dag_prod_su3 2 a b c m) a 0 0 ≠ ((mat m b)ᴴ * mat m c) 0 0 := by
  obtain ⟨e00, e01, e02, e10, e11, e12, e20, e21, e22⟩ := el_num 0
  obtain ⟨f00, f01, f02, f10, f11, f12, f20, f21, f22⟩ := el_num 18
  refine ⟨18, 0, 0, tMem, Or.inr (by norm_num), Or.inr (by norm_num), ?_⟩
  intro h
  have h' := congrArg Complex.re h
  beta_reduce
  rw [Matrix.mul_apply, Fin.sum_univ_three] at h'
  norm_num [unsafe_su3_dag_prod_su3, cols, List.filter, unsafe_complex_conj1_prod, unsafe_complex_conj2_prod,
    complex_summ_the_conj1_prod, complex_summ_the_conj2_prod, mat, val, put, tMem,
      e00, e01, e02, e10, e11, e12, e20, e21, e22, f00, f01, f02, f10, f11, f12, f20, f21, f22] at h'

example : MApart 0 18 ∧ MApart 36 0 ∧ MApart 36 18 ∧ Sep 54 2 0 18 ∧ Apart 54 56 ∧ MSame 0 0 :=
  ⟨Or.inl (by norm_num), Or.inr (by norm_num), Or.inr (by norm_num), Or.inr (by norm_num), Or.inl (by norm_num), Or.inl rfl⟩

end Nissa.Su3
