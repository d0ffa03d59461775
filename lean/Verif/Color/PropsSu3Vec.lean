import Verif.Color.PropsSu3Mem2

/-! # C31: products of colour matrices and colour vectors -/

set_option linter.all false

namespace Nissa.Su3

open Nissa.Cplx Complex ComplexConjugate Matrix

theorem val_out {a x : ℕ} {m m0 : Mem} (ho : ∀ q, (q < a ∨ a + 6 ≤ q) → m q = m0 q) (hx : x + 2 ≤ a ∨ a + 6 ≤ x) :
    val m x = val m0 x := by
  unfold val; rw [ho x (by omega), ho (x + 1) (by omega)]

theorem vprod_does (K0 K : ℕ → ℕ → ℕ → Mem → Mem) (h : ℂ → ℂ → ℂ) (hK0 : Does3Apart K0 (fun _ y z => h y z))
    (hK : Does3 K (fun x y z => x + h y z)) (a : ℕ) (y z : Fin 3 → Fin 3 → ℕ)
    (hy : ∀ i j, y i j + 2 ≤ a ∨ a + 6 ≤ y i j) (hz : ∀ i j, z i j + 2 ≤ a ∨ a + 6 ≤ z i j) (m : Mem) :
    let op := fun m => cols.foldl (fun m i => [1, 2].foldl (fun m j => K (elv a i) (y i j) (z i j) m)
      (K0 (elv a i) (y i 0) (z i 0) m)) m
    (∀ i, val (op m) (elv a i) = ∑ k, h (val m (y i k)) (val m (z i k))) ∧ Only a 6 m (op m) := by
  intro op
  have ay : ∀ i j, Apart (elv a i) (y i j) := by
    intro i j; have := elvb a i; have := hy i j; unfold Apart; omega
  have az : ∀ i j, Apart (elv a i) (z i j) := by
    intro i j; have := elvb a i; have := hz i j; unfold Apart; omega
  apply loop1_spec a (fun i m => [1, 2].foldl (fun m j => K (elv a i) (y i j) (z i j) m)
      (K0 (elv a i) (y i 0) (z i 0) m)) (fun i m => ∑ k, h (val m (y i k)) (val m (z i k)))
  · intro i m
    exact (prod_fold K0 K h hK0 hK (elv a i) _ _ (fun k => y i k) (fun k => z i k) [1, 2] m (ay i 0) (az i 0)
      (fun k _ => ay i k) (fun k _ => az i k)).2
  · intro i m m0 ho _
    rw [(prod_fold K0 K h hK0 hK (elv a i) _ _ (fun k => y i k) (fun k => z i k) [1, 2] m (ay i 0) (az i 0)
      (fun k _ => ay i k) (fun k _ => az i k)).1]
    simp only [List.map_cons, List.map_nil, List.sum_cons, List.sum_nil, Fin.sum_univ_three,
      val_out ho (hy _ _), val_out ho (hz _ _)]
    ring

theorem vacc_does (K : ℕ → ℕ → ℕ → Mem → Mem) (h : ℂ → ℂ → ℂ)
    (hK : Does3 K (fun x y z => x + h y z)) (a : ℕ) (y z : Fin 3 → Fin 3 → ℕ)
    (hy : ∀ i j, y i j + 2 ≤ a ∨ a + 6 ≤ y i j) (hz : ∀ i j, z i j + 2 ≤ a ∨ a + 6 ≤ z i j) (m : Mem) :
    let op := fun m => cols.foldl (fun m i => cols.foldl (fun m j => K (elv a i) (y i j) (z i j) m) m) m
    (∀ i, val (op m) (elv a i) = val m (elv a i) + ∑ k, h (val m (y i k)) (val m (z i k))) ∧ Only a 6 m (op m) := by
  intro op
  have ay : ∀ i j, Apart (elv a i) (y i j) := by
    intro i j; have := elvb a i; have := hy i j; unfold Apart; omega
  have az : ∀ i j, Apart (elv a i) (z i j) := by
    intro i j; have := elvb a i; have := hz i j; unfold Apart; omega
  apply loop1_spec a (fun i m => cols.foldl (fun m j => K (elv a i) (y i j) (z i j) m) m)
    (fun i m => val m (elv a i) + ∑ k, h (val m (y i k)) (val m (z i k)))
  · intro i m
    exact (acc_fold K h hK (elv a i) (fun k => y i k) (fun k => z i k) cols m (fun k _ => ay i k) (fun k _ => az i k)).2
  · intro i m m0 ho hv
    rw [(acc_fold K h hK (elv a i) (fun k => y i k) (fun k => z i k) cols m (fun k _ => ay i k) (fun k _ => az i k)).1]
    simp only [cols, List.map_cons, List.map_nil, List.sum_cons, List.sum_nil, Fin.sum_univ_three, hv,
      val_out ho (hy _ _), val_out ho (hz _ _)]
    ring

/-- The kernel `op a b c` writes in the vector `a` the value `f` of its previous value, of the matrix `b` and of the
vector `c`, and nothing else, provided `a` overlaps neither. -/
def VDoesApart (op : ℕ → ℕ → ℕ → Mem → Mem) (f : (Fin 3 → ℂ) → Matrix (Fin 3) (Fin 3) ℂ → (Fin 3 → ℂ) → (Fin 3 → ℂ)) :
    Prop :=
  ∀ a b c m, Sep a 6 b 18 → Sep a 6 c 6 →
    vec (op a b c m) a = f (vec m a) (mat m b) (vec m c) ∧ Only a 6 m (op a b c m)

/-- the same, the vector on the left: `op a b c` with `b` the vector and `c` the matrix -/
def VDoesApartLeft (op : ℕ → ℕ → ℕ → Mem → Mem) (f : (Fin 3 → ℂ) → (Fin 3 → ℂ) → Matrix (Fin 3) (Fin 3) ℂ → (Fin 3 → ℂ)) :
    Prop :=
  ∀ a b c m, Sep a 6 b 6 → Sep a 6 c 18 →
    vec (op a b c m) a = f (vec m a) (vec m b) (mat m c) ∧ Only a 6 m (op a b c m)

theorem hyOf {a b : ℕ} (h : Sep a 6 b 18) (i j : Fin 3) : el b i j + 2 ≤ a ∨ a + 6 ≤ el b i j := by
  have := elb b i j; unfold Sep at h; omega
theorem hzOf {a c : ℕ} (h : Sep a 6 c 6) (j : Fin 3) : elv c j + 2 ≤ a ∨ a + 6 ≤ elv c j := by
  have := elvb c j; unfold Sep at h; omega

theorem mv_ok : VDoesApart unsafe_su3_prod_color (fun _ B c => B *ᵥ c) := by
  intro a b c m hb hc
  obtain ⟨h1, h2⟩ := vprod_does unsafe_complex_prod complex_summ_the_prod (fun y z => y * z) u_p d_stp a
    (fun i j => el b i j) (fun i j => elv c j) (fun i j => hyOf hb _ _) (fun i j => hzOf hc _) m
  exact ⟨by ext i; exact h1 i, h2⟩

theorem dagv_ok : VDoesApart unsafe_su3_dag_prod_color (fun _ B c => Bᴴ *ᵥ c) := by
  intro a b c m hb hc
  obtain ⟨h1, h2⟩ := vprod_does unsafe_complex_conj1_prod complex_summ_the_conj1_prod (fun y z => conj y * z) u_p1 d_stp1 a
    (fun i j => el b j i) (fun i j => elv c j) (fun i j => hyOf hb _ _) (fun i j => hzOf hc _) m
  exact ⟨by ext i; exact h1 i, h2⟩

/-- Products of a matrix, or of its hermitian conjugate, with a vector on either side, assigned or accumulated. -/
theorem C31_su3_vector_products :
    VDoesApart unsafe_su3_prod_color (fun _ B c => B *ᵥ c) ∧
    VDoesApart unsafe_su3_dag_prod_color (fun _ B c => Bᴴ *ᵥ c) ∧
    VDoesApart su3_summ_the_prod_color (fun a B c => a + B *ᵥ c) ∧
    VDoesApart su3_subt_the_prod_color (fun a B c => a - B *ᵥ c) ∧
    VDoesApart su3_dag_summ_the_prod_color (fun a B c => a + Bᴴ *ᵥ c) ∧
    VDoesApart su3_dag_subt_the_prod_color (fun a B c => a - Bᴴ *ᵥ c) ∧
    VDoesApartLeft unsafe_color_prod_su3 (fun _ b C => b ᵥ* C) ∧
    VDoesApartLeft unsafe_color_prod_su3_dag (fun _ b C => b ᵥ* Cᴴ) := by
  refine ⟨mv_ok, dagv_ok, ?_, ?_, ?_, ?_, ?_, ?_⟩
  · intro a b c m hb hc
    obtain ⟨h1, h2⟩ := vacc_does complex_summ_the_prod (fun y z => y * z) d_stp a
      (fun i j => el b i j) (fun i j => elv c j) (fun i j => hyOf hb _ _) (fun i j => hzOf hc _) m
    exact ⟨by ext i; exact h1 i, h2⟩
  · intro a b c m hb hc
    obtain ⟨h1, h2⟩ := vacc_does complex_subt_the_prod (fun y z => -(y * z)) d_sbtp' a
      (fun i j => el b i j) (fun i j => elv c j) (fun i j => hyOf hb _ _) (fun i j => hzOf hc _) m
    refine ⟨?_, h2⟩
    ext i
    refine (h1 i).trans ?_
    rw [Finset.sum_neg_distrib, ← sub_eq_add_neg]; rfl
  · intro a b c m hb hc
    obtain ⟨h1, h2⟩ := vacc_does complex_summ_the_conj1_prod (fun y z => conj y * z) d_stp1 a
      (fun i j => el b j i) (fun i j => elv c j) (fun i j => hyOf hb _ _) (fun i j => hzOf hc _) m
    exact ⟨by ext i; exact h1 i, h2⟩
  · intro a b c m hb hc
    obtain ⟨h1, h2⟩ := vacc_does complex_subt_the_conj1_prod (fun y z => -(conj y * z)) d_sbtp1' a
      (fun i j => el b j i) (fun i j => elv c j) (fun i j => hyOf hb _ _) (fun i j => hzOf hc _) m
    refine ⟨?_, h2⟩
    ext i
    refine (h1 i).trans ?_
    rw [Finset.sum_neg_distrib, ← sub_eq_add_neg]; rfl
  · intro a b c m hb hc
    obtain ⟨h1, h2⟩ := vprod_does unsafe_complex_prod complex_summ_the_prod (fun y z => y * z) u_p d_stp a
      (fun i j => elv b j) (fun i j => el c j i) (fun i j => hzOf hb _) (fun i j => hyOf hc _ _) m
    exact ⟨by ext i; exact h1 i, h2⟩
  · intro a b c m hb hc
    obtain ⟨h1, h2⟩ := vprod_does unsafe_complex_conj2_prod complex_summ_the_conj2_prod (fun y z => y * conj z) u_p2 d_stp2 a
      (fun i j => elv b j) (fun i j => el c i j) (fun i j => hzOf hb _) (fun i j => hyOf hc _ _) m
    exact ⟨by ext i; exact h1 i, h2⟩

theorem vcopy_ok (a b : ℕ) (m : Mem) (h : Sep a 6 b 6) : vec (color_copy a b m) a = vec m b ∧ Only a 6 m (color_copy a b m) := by
  have ay : ∀ i j, Apart (elv a i) (elv b j) := by
    intro i j; have := elvb a i; have := elvb b j; unfold Sep at h; unfold Apart; omega
  obtain ⟨q1, -⟩ := C31_complex_one_input 0
  obtain ⟨h1, h2⟩ := loop1_spec a (fun i m => complex_copy (elv a i) (elv b i) m) (fun i m => val m (elv b i))
    (fun i m => (q1 _ _ m (Or.inr (ay i i))).2)
    (fun i m m0 ho _ => (q1 _ _ m (Or.inr (ay i i))).1.trans (val_out ho (hzOf h i))) m
  exact ⟨by ext i; exact h1 i, h2⟩

/-- The `safe` products with a vector, also in place. -/
theorem C31_su3_safe_vector_products (tmp a b c : ℕ) (m : Mem) (hta : Sep tmp 6 a 6) (htb : Sep tmp 6 b 18)
    (htc : Sep tmp 6 c 6) :
    vec (safe_su3_prod_color tmp a b c m) a = mat m b *ᵥ vec m c ∧
    vec (safe_su3_dag_prod_color tmp a b c m) a = (mat m b)ᴴ *ᵥ vec m c := by
  have hat : Sep a 6 tmp 6 := by unfold Sep at *; omega
  constructor
  · unfold safe_su3_prod_color
    rw [(vcopy_ok a tmp _ hat).1, (mv_ok tmp b c m htb htc).1]
  · unfold safe_su3_dag_prod_color
    rw [(vcopy_ok a tmp _ hat).1, (dagv_ok tmp b c m htb htc).1]

/-- the in-place case meets the hypotheses -/
example : Sep 24 6 18 6 ∧ Sep 24 6 0 18 := ⟨Or.inr (by norm_num), Or.inr (by norm_num)⟩

end Nissa.Su3
