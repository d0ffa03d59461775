import Verif.Spin.PropsGamma

/-! # C30, continued: the operations on sparse matrices are the matrix operations -/

set_option linter.all false

namespace Nissa.Gamma

open Matrix

theorem foldl4 {α β : Type} (f : α → β → α) (a : α) (x y z t : β) :
    [x, y, z, t].foldl f a = f (f (f (f a x) y) z) t := rfl

/-- Every operation on sparse matrices that returns is the corresponding operation on matrices; sum and difference
return exactly when the two matrices fill the same columns. -/
theorem C30_sparse_ops (a b : DiracMatr ℂ) (c : ℂ) (r : ℝ) :
    dense (diracProd a b) = dense a * dense b ∧
    dense (diracProdComplex a c) = c • dense a ∧
    dense (diracProdDouble a r) = (r : ℂ) • dense a ∧
    dense (diracProdIdouble a r) = (Complex.I * r) • dense a ∧
    (∀ o, diracSumm a b = some o → dense o = dense a + dense b) ∧
    (∀ o, diracSubt a b = some o → dense o = dense a - dense b) ∧
    ((diracSumm a b).isSome ↔ a.pos = b.pos) ∧ ((diracSubt a b).isSome ↔ a.pos = b.pos) := by
  refine ⟨dense_prod a b, ?_, ?_, ?_, ?_, ?_, ?_, ?_⟩
  · ext i j
    by_cases h : j = a.pos i <;> simp [dense, diracProdComplex, h, mul_comm]
  · ext i j
    by_cases h : j = a.pos i
    · simp [dense, diracProdDouble, h]
      apply Complex.ext <;> simp [mul_comm]
    · simp [dense, diracProdDouble, h]
  · ext i j
    by_cases h : j = a.pos i
    · simp [dense, diracProdIdouble, h]
      apply Complex.ext <;> simp [mul_comm]
    · simp [dense, diracProdIdouble, h]
  · intro o ho
    unfold diracSumm at ho
    by_cases hp : ∀ i, a.pos i = b.pos i
    · rw [if_pos hp] at ho
      cases ho
      ext i j
      by_cases h : j = b.pos i <;> simp [dense, hp, h]
    · rw [if_neg hp] at ho; cases ho
  · intro o ho
    unfold diracSubt at ho
    by_cases hp : ∀ i, a.pos i = b.pos i
    · rw [if_pos hp] at ho
      cases ho
      ext i j
      by_cases h : j = b.pos i <;> simp [dense, hp, h]
    · rw [if_neg hp] at ho; cases ho
  · unfold diracSumm
    by_cases hp : ∀ i, a.pos i = b.pos i
    · rw [if_pos hp]; simp [funext hp]
    · rw [if_neg hp]; simp; intro h; exact hp (fun i => by rw [h])
  · unfold diracSubt
    by_cases hp : ∀ i, a.pos i = b.pos i
    · rw [if_pos hp]; simp [funext hp]
    · rw [if_neg hp]; simp; intro h; exact hp (fun i => by rw [h])

/-- the state of the loop of `dirac_herm` on any row already written -/
theorem herm_inv {K : Type} [Star K] (a : DiracMatr K) (hinj : Function.Injective a.pos) :
    ∀ (l : List (Fin 4)) (o : DiracMatr K) (id : Fin 4), id ∈ l →
      (l.foldl (hermStep a) o).pos (a.pos id) = id ∧ (l.foldl (hermStep a) o).entr (a.pos id) = star (a.entr id) := by
  have keep : ∀ (l : List (Fin 4)) (o : DiracMatr K) (id : Fin 4), o.pos (a.pos id) = id →
      o.entr (a.pos id) = star (a.entr id) →
      (l.foldl (hermStep a) o).pos (a.pos id) = id ∧ (l.foldl (hermStep a) o).entr (a.pos id) = star (a.entr id) := by
    intro l
    induction l with
    | nil => intro o id h1 h2; exact ⟨h1, h2⟩
    | cons x l ih =>
      intro o id h1 h2
      rw [List.foldl_cons]
      apply ih
      · by_cases hx : a.pos id = a.pos x
        · have : id = x := hinj hx
          subst this; simp [hermStep]
        · simp [hermStep, Function.update_of_ne hx, h1]
      · by_cases hx : a.pos id = a.pos x
        · have : id = x := hinj hx
          subst this; simp [hermStep]
        · simp [hermStep, Function.update_of_ne hx, h2]
  intro l
  induction l with
  | nil => intro o id h; cases h
  | cons x l ih =>
    intro o id h
    rw [List.foldl_cons]
    rcases List.mem_cons.1 h with h | h
    · subst h
      apply keep <;> simp [hermStep]
    · exact ih _ id h

/-- `dirac_herm` returns the hermitian conjugate exactly when no two rows fill the same column, and aborts
otherwise; nothing of the uninitialised output survives. -/
theorem C30_herm (junk a : DiracMatr ℂ) :
    ((diracHerm junk a).isSome ↔ Function.Injective a.pos) ∧
    ∀ o, diracHerm junk a = some o → dense o = (dense a)ᴴ := by
  have hiff : (∀ i j : Fin 4, i < j → a.pos i ≠ a.pos j) ↔ Function.Injective a.pos := by
    constructor
    · intro h i j hij
      rcases lt_trichotomy i j with hl | he | hg
      · exact absurd hij (h i j hl)
      · exact he
      · exact absurd hij.symm (h j i hg)
    · intro h i j hl he
      exact absurd (h he) (ne_of_lt hl)
  constructor
  · unfold diracHerm
    by_cases h : ∀ i j : Fin 4, i < j → a.pos i ≠ a.pos j
    · rw [if_pos h]; simp [hiff.1 h]
    · rw [if_neg h]; simp; exact fun hh => h (hiff.2 hh)
  · intro o ho
    unfold diracHerm at ho
    by_cases h : ∀ i j : Fin 4, i < j → a.pos i ≠ a.pos j
    · rw [if_pos h] at ho
      cases ho
      have hinj := hiff.1 h
      have hall := fun id : Fin 4 => herm_inv a hinj [0, 1, 2, 3] junk id (by fin_cases id <;> simp)
      have hsurj : Function.Surjective a.pos := Finite.surjective_of_injective hinj
      ext i j
      obtain ⟨id, rfl⟩ := hsurj i
      obtain ⟨h1, h2⟩ := hall id
      rw [Matrix.conjTranspose_apply]
      simp only [dense, Matrix.of_apply, h1, h2]
      by_cases hj : j = id
      · subst hj; simp
      · have : ¬ a.pos id = a.pos j := fun e => hj (hinj e).symm
        simp [hj, this]
    · rw [if_neg h] at ho; cases ho

example : (diracHerm (baseGamma 0) (baseGamma 10)).isSome := by
  rw [(C30_herm _ _).1, show baseGamma 10 = toC (table 10) from baseGamma_lift 10]
  show Function.Injective (table 10).pos
  decide +kernel

theorem sum4 {M : Type} [AddCommMonoid M] (f : Fin 4 → M) : ∑ i, f i = f 0 + f 1 + f 2 + f 3 := by
  simp [Fin.sum_univ_succ, add_assoc]

/-- the products with a dense matrix (times, times transposed, times dagger), with a vector, the trace, and the
accumulations, for every sparse matrix -/
theorem C30_dense_ops (m : DiracMatr ℂ) (s : SpinSpin ℂ) (v : Fin 4 → ℂ) (c : ℂ) :
    diracProdSpinspin m s = dense m * s ∧
    diracProdSpinspinTransp m s = dense m * sᵀ ∧
    diracProdSpinspinDag m s = dense m * sᴴ ∧
    diracProdSpin m v = dense m *ᵥ v ∧
    spinProdDirac v m = v ᵥ* dense m ∧
    traceDiracProdSpinspin m s = Matrix.trace (dense m * s) ∧
    summTheProdComplex s m c = s + c • dense m ∧
    subtTheProdComplex s m c = s - c • dense m := by
  have hmul : ∀ t : SpinSpin ℂ, ∀ i j, (dense m * t) i j = m.entr i * t (m.pos i) j := by
    intro t i j
    rw [Matrix.mul_apply, Finset.sum_eq_single (m.pos i)]
    · simp [dense]
    · intro x _ hx; simp [dense, hx]
    · intro h; exact absurd (Finset.mem_univ _) h
  refine ⟨?_, ?_, ?_, ?_, ?_, ?_, ?_, ?_⟩
  · ext i j; rw [hmul]; rfl
  · ext i j; rw [hmul]; rfl
  · ext i j; rw [hmul]; rfl
  · ext i
    rw [Matrix.mulVec, dotProduct, Finset.sum_eq_single (m.pos i)]
    · simp [dense, diracProdSpin]
    · intro x _ hx; simp [dense, hx]
    · intro h; exact absurd (Finset.mem_univ _) h
  · ext j
    rw [Matrix.vecMul, dotProduct, sum4]
    simp only [spinProdDirac, foldl4, dense, Matrix.of_apply, Function.update_apply]
    split_ifs <;> simp_all
  · simp only [traceDiracProdSpinspin, foldl4, Matrix.trace, Matrix.diag, hmul, sum4]
    ring
  · ext i j
    simp only [summTheProdComplex, foldl4, setEl, dense, Matrix.add_apply, Matrix.smul_apply, Matrix.of_apply]
    fin_cases i <;> simp <;> split_ifs <;> simp_all [mul_comm]
  · ext i j
    simp only [subtTheProdComplex, foldl4, setEl, dense, Matrix.sub_apply, Matrix.smul_apply, Matrix.of_apply]
    fin_cases i <;> simp <;> split_ifs <;> simp_all [mul_comm]

theorem setEl_fold {K : Type} [Zero K] [Mul K] (s : SpinSpin K) (m : DiracMatr K) (hinj : Function.Injective m.pos)
    (i j : Fin 4) : ∀ (l : List (Fin 4 × Fin 4)) (o : SpinSpin K),
      ((l.foldl (fun o p => setEl o p.1 (m.pos p.2) (s p.1 p.2 * m.entr p.2)) o) i (m.pos j)) =
        if (i, j) ∈ l then s i j * m.entr j else o i (m.pos j) := by
  intro l
  induction l with
  | nil => intro o; simp
  | cons x l ih =>
    intro o
    rw [List.foldl_cons, ih]
    by_cases hl : (i, j) ∈ l
    · rw [if_pos hl, if_pos (List.mem_cons_of_mem _ hl)]
    · rw [if_neg hl]
      by_cases hx : (i, j) = x
      · subst hx; simp [setEl]
      · have hne : ¬ (i = x.1 ∧ m.pos j = m.pos x.2) := by
          rintro ⟨h1, h2⟩
          exact hx (Prod.ext h1 (hinj h2))
        rw [if_neg (by simp [hx, hl])]
        simp [setEl, hne]

/-- the product on the right is right when no two rows fill the same column (as for every tabulated matrix) -/
theorem C30_right_product (s : SpinSpin ℂ) (m : DiracMatr ℂ) (hinj : Function.Injective m.pos) :
    spinspinProdDirac s m = s * dense m := by
  have hsurj : Function.Surjective m.pos := Finite.surjective_of_injective hinj
  ext i j'
  obtain ⟨j, rfl⟩ := hsurj j'
  unfold spinspinProdDirac
  rw [setEl_fold s m hinj, if_pos (by fin_cases i <;> fin_cases j <;> decide)]
  rw [Matrix.mul_apply, Finset.sum_eq_single j]
  · simp [dense]
  · intro x _ hx
    have : ¬ m.pos j = m.pos x := fun e => hx (hinj e).symm
    simp [dense, this]
  · intro h; exact absurd (Finset.mem_univ _) h

/-- all nineteen tabulated matrices meet the hypothesis -/
theorem table_injective (k : Fin 19) : Function.Injective (baseGamma k).pos := by
  have h16 : ∀ k : Fin 16, Function.Injective (table k).pos := by decide +kernel
  by_cases h : (k : ℕ) < 16
  · have : baseGamma k = toC (table ⟨k, h⟩) := by simp [baseGamma, h]
    rw [this]; exact h16 _
  · unfold baseGamma
    rw [dif_neg h]
    split_ifs
    · exact (h16 6).comp (h16 4)
    · exact (h16 7).comp (h16 4)
    · exact (h16 8).comp (h16 4)

/-- with two rows filling the same column the right product loses a term: the code assigns instead of summing -/
theorem C30_violated_right_product : ∃ (s : SpinSpin ℂ) (m : DiracMatr ℂ), spinspinProdDirac s m ≠ s * dense m := by
  let s1 : SpinSpin ℂ := Matrix.of fun _ _ => 1
  let m1 : DiracMatr ℂ := ⟨fun _ => 0, fun _ => 1⟩
  have hr : (s1 * dense m1) 0 0 = 4 := by
    rw [Matrix.mul_apply, sum4]
    norm_num [dense, s1, m1]
  have hl : spinspinProdDirac s1 m1 0 0 = 1 := by
    simp [spinspinProdDirac, allPairs, setEl, List.foldl, s1, m1]
  refine ⟨s1, m1, fun h => ?_⟩
  rw [h, hr] at hl
  norm_num at hl

theorem putToId_eq : (putToId : SpinSpin ℂ) = 1 := by
  ext i j
  simp only [putToId, foldl4, setEl, putToZero, Matrix.one_apply]
  fin_cases i <;> fin_cases j <;> simp

theorem opg_eq (mu : Fin 4) : opg mu = 1 + γdir mu := by
  rw [opg, (C30_dense_ops _ _ 0 1).2.2.2.2.2.2.1, putToId_eq, one_smul]

theorem omg_eq (mu : Fin 4) : omg mu = 1 - γdir mu := by
  rw [omg, (C30_dense_ops _ _ 0 (-1)).2.2.2.2.2.2.1, putToId_eq, neg_one_smul, sub_eq_add_neg]

theorem γsq (mu : Fin 4) : γdir mu * γdir mu = 1 := by
  have h := C30_clifford mu mu
  rw [if_pos rfl, ← two_smul ℂ (γdir mu * γdir mu)] at h
  exact smul_right_injective _ (two_ne_zero (α := ℂ)) h

/-- `opg`, `omg` are `1±γ`, twice complementary orthogonal hermitian projectors. -/
theorem C30_projectors (mu : Fin 4) : opg mu = 1 + γdir mu ∧ omg mu = 1 - γdir mu ∧
    opg mu * opg mu = (2 : ℂ) • opg mu ∧ omg mu * omg mu = (2 : ℂ) • omg mu ∧
    opg mu * omg mu = 0 ∧ omg mu * opg mu = 0 ∧ opg mu + omg mu = (2 : ℂ) • 1 ∧
    (opg mu)ᴴ = opg mu ∧ (omg mu)ᴴ = omg mu := by
  have hs := γsq mu
  have hh := C30_hermitian.1 mu
  rw [opg_eq, omg_eq]
  refine ⟨rfl, rfl, ?_, ?_, ?_, ?_, ?_, ?_, ?_⟩
  · rw [add_mul, mul_add, mul_add, hs, two_smul]; simp; abel
  · rw [sub_mul, mul_sub, mul_sub, hs, two_smul]; simp; abel
  · rw [add_mul, mul_sub, mul_sub, hs]; simp
  · rw [sub_mul, mul_add, mul_add, hs]; simp; abel
  · rw [two_smul]; abel
  · rw [conjTranspose_add, hh, conjTranspose_one]
  · rw [conjTranspose_sub, hh, conjTranspose_one]

/-- `Pplus`, `Pminus` are the rotations `(1±iγ5)/√2`, inverse of each other and unitary. -/
theorem C30_rotators :
    dense pPlus = ((1 / √2 : ℝ) : ℂ) • (1 + Complex.I • Γ 5) ∧
    dense pMinus = ((1 / √2 : ℝ) : ℂ) • (1 - Complex.I • Γ 5) ∧
    dense pPlus * dense pMinus = 1 ∧ (dense pPlus)ᴴ = dense pMinus := by
  have h5 : Γ 5 = !![1,0,0,0;0,1,0,0;0,0,-1,0;0,0,0,-1] := by
    rw [Γ5_eq]
    have : dense (table 5) = !![1,0,0,0;0,1,0,0;0,0,-1,0;0,0,0,-1] := by decide +kernel
    rw [this]; ext i j; fin_cases i <;> fin_cases j <;> simp
  have h2 : (√2)⁻¹ = √2 / 2 := by
    rw [inv_eq_one_div, div_eq_div_iff (by positivity) (by norm_num), Real.mul_self_sqrt (by norm_num), one_mul]
  have e1 : dense pPlus = ((1 / √2 : ℝ) : ℂ) • (1 + Complex.I • Γ 5) := by
    rw [h5]; ext i j
    fin_cases i <;> fin_cases j <;> simp [dense, pPlus] <;> apply Complex.ext <;> simp [h2]
  have e2 : dense pMinus = ((1 / √2 : ℝ) : ℂ) • (1 - Complex.I • Γ 5) := by
    rw [h5]; ext i j
    fin_cases i <;> fin_cases j <;> simp [dense, pMinus] <;> apply Complex.ext <;> simp [h2]
  have h55 := C30_gamma5.2.2
  have hsq : (((1 / √2 : ℝ) : ℂ)) * ((1 / √2 : ℝ) : ℂ) = 1 / 2 := by
    rw [← Complex.ofReal_mul, div_mul_div_comm, Real.mul_self_sqrt (by norm_num)]
    norm_num
  refine ⟨e1, e2, ?_, ?_⟩
  · rw [e1, e2, Matrix.smul_mul, Matrix.mul_smul, smul_smul, hsq, add_mul, mul_sub, mul_sub, Matrix.smul_mul,
      Matrix.smul_mul, Matrix.mul_smul, Matrix.mul_smul, h55, smul_smul, Complex.I_mul_I]
    ext i j
    simp [Matrix.smul_apply]
    ring
  · rw [e1, e2, conjTranspose_smul, conjTranspose_add, conjTranspose_smul, C30_hermitian.2, conjTranspose_one]
    simp [sub_eq_add_neg]

/-- `rotate_spinspin_to_physical_basis` multiplies on the left by `(1±iγ5)/√2` (sign chosen by `rso`) and on the right
by `(1±iγ5)/√2` (sign chosen by `rsi`). -/
theorem C30_rotate (s : SpinSpin ℂ) (rsi rso : Fin 2) :
    rotatePhys Complex.I s rsi rso =
      (if rso = 0 then dense pPlus else dense pMinus) * s * (if rsi = 0 then dense pPlus else dense pMinus) := by
  have hsq : ((√2 : ℝ) : ℂ) * ((√2 : ℝ) : ℂ) = 2 := by
    rw [← Complex.ofReal_mul, Real.mul_self_sqrt (by norm_num)]; norm_num
  set w : ℂ := ⟨1/√2, 1/√2⟩ with hw
  set wb : ℂ := ⟨1/√2, -(1/√2)⟩ with hwb
  have hr : (√2)⁻¹ * (√2)⁻¹ = (1/2 : ℝ) := by
    rw [← mul_inv, Real.mul_self_sqrt (by norm_num)]; norm_num
  have hww : w * w = Complex.I := by
    apply Complex.ext
    · simp [hw]
    · simp [hw]; linarith
  have hwbwb : wb * wb = -Complex.I := by
    apply Complex.ext
    · simp [hwb]
    · simp [hwb]; linarith
  have hwwb : w * wb = 1 := by
    apply Complex.ext
    · simp [hw, hwb]; linarith
    · simp [hw, hwb]
  have hwbw : wb * w = 1 := by rw [mul_comm]; exact hwwb
  have hl : ∀ (f : Fin 4 → ℂ) (t : SpinSpin ℂ) (g : Fin 4 → ℂ) (i j : Fin 4),
      ((dense ⟨![0,1,2,3], f⟩ * t) * dense ⟨![0,1,2,3], g⟩) i j = (f i * g j) * t i j := by
    intro f t g i j
    rw [Matrix.mul_apply, sum4]
    simp only [Matrix.mul_apply, sum4, dense, Matrix.of_apply]
    fin_cases i <;> fin_cases j <;> simp <;> ring
  have hp : pPlus = ⟨![0,1,2,3], ![w, w, wb, wb]⟩ := rfl
  have hm : pMinus = ⟨![0,1,2,3], ![wb, wb, w, w]⟩ := rfl
  ext i j
  fin_cases rsi <;> fin_cases rso <;>
    simp only [hp, hm, hl, Fin.zero_eta, Fin.mk_one, if_true, if_false, Fin.reduceEq] <;>
    fin_cases i <;> fin_cases j <;>
    simp [hww, hwbwb, hwwb, hwbw, rotatePhys, setEl, List.foldl, listPrb, listMrb, soShft, siShft] 

/-- the antisymmetric tensor: the six entries are `γμ γν` for `(μ,ν)` = 01, 02, 03, 12, 13, 23 -/
theorem C30_smunu :
    dense (smunu 0) = γdir 0 * γdir 1 ∧ dense (smunu 1) = γdir 0 * γdir 2 ∧ dense (smunu 2) = γdir 0 * γdir 3 ∧
    dense (smunu 3) = γdir 1 * γdir 2 ∧ dense (smunu 4) = γdir 1 * γdir 3 ∧ dense (smunu 5) = γdir 2 * γdir 3 := by
  have hsm : ∀ i, dense (smunu i) = ((cmunu i : ℤ) : ℂ) • Γ (lmunu i) := by
    intro i
    ext a b
    by_cases h : b = (baseGamma (lmunu i)).pos a
    · simp [smunu, dense, h]
      apply Complex.ext <;> simp
    · simp [smunu, dense, h]
  obtain ⟨_, _, _, _, _, h10, h11, h12, h13, h14, h15, _, _, _⟩ := C30_products
  have h31 := C30_clifford 3 1
  rw [if_neg (by decide)] at h31
  refine ⟨?_, ?_, ?_, ?_, ?_, ?_⟩
  · rw [hsm, ← h10]; simp [cmunu, lmunu]
  · rw [hsm, ← h11]; simp [cmunu, lmunu]
  · rw [hsm, ← h12]; simp [cmunu, lmunu]
  · rw [hsm, ← h15]; simp [cmunu, lmunu]
  · rw [hsm]
    have : γdir 1 * γdir 3 = -(γdir 3 * γdir 1) := by
      rw [eq_neg_iff_add_eq_zero, add_comm]; exact h31
    rw [this, ← h14]; simp [cmunu, lmunu]
  · rw [hsm, ← h13]; simp [cmunu, lmunu]

end Nissa.Gamma
