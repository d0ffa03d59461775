import Verif.Color.Su3Mem
import Verif.Color.PropsComplexMem

/-! # C31: the colour matrix kernels -/

set_option linter.all false

namespace Nissa.Su3

open Nissa.Cplx Complex ComplexConjugate Matrix

/-! ## helpers -/

theorem elb (p : ℕ) (i j : Fin 3) : p ≤ el p i j ∧ el p i j + 2 ≤ p + 18 := by
  have := i.2; have := j.2; unfold el; omega

theorem elvb (p : ℕ) (i : Fin 3) : p ≤ elv p i ∧ elv p i + 2 ≤ p + 6 := by
  have := i.2; unfold elv; omega

theorem el_apart (p : ℕ) {i j k l : Fin 3} (h : (i, j) ≠ (k, l)) : el p i j + 2 ≤ el p k l ∨ el p k l + 2 ≤ el p i j := by
  have := i.2; have := j.2; have := k.2; have := l.2
  have h' : i.val ≠ k.val ∨ j.val ≠ l.val := by
    by_contra hc
    push Not at hc
    exact h (Prod.ext (Fin.ext hc.1) (Fin.ext hc.2))
  unfold el; omega

theorem elv_apart (p : ℕ) {i k : Fin 3} (h : i ≠ k) : elv p i + 2 ≤ elv p k ∨ elv p k + 2 ≤ elv p i := by
  have := i.2; have := k.2
  have h' : i.val ≠ k.val := fun e => h (Fin.ext e)
  unfold elv; omega

theorem val_congr {m m' : Mem} {p : ℕ} (h0 : m p = m' p) (h1 : m (p+1) = m' (p+1)) : val m p = val m' p := by
  simp [val, h0, h1]

theorem val_onlyAt {a p : ℕ} {m m' : Mem} (h : OnlyAt a m m') (hs : a + 2 ≤ p ∨ p + 2 ≤ a) : val m' p = val m p := by
  apply val_congr
  · exact h p (by omega) (by omega)
  · exact h (p+1) (by omega) (by omega)

/-- the loop over all elements, each step touching its own element only -/
theorem loop2_spec (a : ℕ) (f : Fin 3 → Fin 3 → Mem → Mem) (g : Fin 3 → Fin 3 → Mem → ℂ)
    (h1 : ∀ i j m, OnlyAt (el a i j) m (f i j m))
    (h2 : ∀ i j m m0, (∀ q, (q < a ∨ a + 18 ≤ q) → m q = m0 q) → val m (el a i j) = val m0 (el a i j) →
      val (f i j m) (el a i j) = g i j m0) (m : Mem) :
    (∀ i j, val (loop2 f m) (el a i j) = g i j m) ∧ Only a 18 m (loop2 f m) := by
  have key : ∀ (l : List (Fin 3 × Fin 3)), l.Nodup → ∀ m1 : Mem,
      (∀ q, (q < a ∨ a + 18 ≤ q) → m1 q = m q) → (∀ p ∈ l, val m1 (el a p.1 p.2) = val m (el a p.1 p.2)) →
      let m2 := l.foldl (fun m p => f p.1 p.2 m) m1
      (∀ p ∈ l, val m2 (el a p.1 p.2) = g p.1 p.2 m) ∧ (∀ p, p ∉ l → val m2 (el a p.1 p.2) = val m1 (el a p.1 p.2)) ∧
      (∀ q, (q < a ∨ a + 18 ≤ q) → m2 q = m q) := by
    intro l
    induction l with
    | nil => intro _ m1 ho _; exact ⟨fun p hp => (by cases hp), fun p _ => rfl, ho⟩
    | cons x l ih =>
      intro hnd m1 ho hv
      have hx := List.nodup_cons.1 hnd
      have h1x := h1 x.1 x.2 m1
      have hb := elb a x.1 x.2
      have hov : ∀ p, p ≠ x → val (f x.1 x.2 m1) (el a p.1 p.2) = val m1 (el a p.1 p.2) := by
        intro p hp
        apply val_onlyAt h1x
        have : (x.1, x.2) ≠ (p.1, p.2) := fun e => hp (Prod.ext (Prod.mk.inj e).1.symm (Prod.mk.inj e).2.symm)
        exact el_apart a this
      have ho' : ∀ q, (q < a ∨ a + 18 ≤ q) → (f x.1 x.2 m1) q = m q := by
        intro q hq
        rw [h1x q (by omega) (by omega)]
        exact ho q hq
      have hxv : val (f x.1 x.2 m1) (el a x.1 x.2) = g x.1 x.2 m :=
        h2 x.1 x.2 m1 m ho (hv x List.mem_cons_self)
      obtain ⟨r1, r2, r3⟩ := ih hx.2 (f x.1 x.2 m1) ho' (by
        intro p hp
        have hpx : p ≠ x := fun e => hx.1 (e ▸ hp)
        rw [hov p hpx]
        exact hv p (List.mem_cons_of_mem _ hp))
      refine ⟨?_, ?_, r3⟩
      · intro p hp
        rcases List.mem_cons.1 hp with e | e
        · subst e
          rw [List.foldl_cons, r2 p hx.1, hxv]
        · exact r1 p e
      · intro p hp
        have hpx : p ≠ x := fun e => hp (e ▸ List.mem_cons_self)
        have hpl : p ∉ l := fun e => hp (List.mem_cons_of_mem _ e)
        rw [List.foldl_cons, r2 p hpl, hov p hpx]
  obtain ⟨r1, _, r3⟩ := key pairs (by decide) m (fun _ _ => rfl) (fun _ _ => rfl)
  refine ⟨fun i j => r1 (i, j) (by fin_cases i <;> fin_cases j <;> decide), r3⟩

/-- the loop over the elements of a vector -/
theorem loop1_spec (a : ℕ) (f : Fin 3 → Mem → Mem) (g : Fin 3 → Mem → ℂ)
    (h1 : ∀ i m, OnlyAt (elv a i) m (f i m))
    (h2 : ∀ i m m0, (∀ q, (q < a ∨ a + 6 ≤ q) → m q = m0 q) → val m (elv a i) = val m0 (elv a i) →
      val (f i m) (elv a i) = g i m0) (m : Mem) :
    (∀ i, val (cols.foldl (fun m i => f i m) m) (elv a i) = g i m) ∧ Only a 6 m (cols.foldl (fun m i => f i m) m) := by
  have key : ∀ (l : List (Fin 3)), l.Nodup → ∀ m1 : Mem,
      (∀ q, (q < a ∨ a + 6 ≤ q) → m1 q = m q) → (∀ p ∈ l, val m1 (elv a p) = val m (elv a p)) →
      let m2 := l.foldl (fun m i => f i m) m1
      (∀ p ∈ l, val m2 (elv a p) = g p m) ∧ (∀ p, p ∉ l → val m2 (elv a p) = val m1 (elv a p)) ∧
      (∀ q, (q < a ∨ a + 6 ≤ q) → m2 q = m q) := by
    intro l
    induction l with
    | nil => intro _ m1 ho _; exact ⟨fun p hp => (by cases hp), fun p _ => rfl, ho⟩
    | cons x l ih =>
      intro hnd m1 ho hv
      have hx := List.nodup_cons.1 hnd
      have h1x := h1 x m1
      have hb := elvb a x
      have hov : ∀ p, p ≠ x → val (f x m1) (elv a p) = val m1 (elv a p) := by
        intro p hp
        exact val_onlyAt h1x (elv_apart a (Ne.symm hp))
      have ho' : ∀ q, (q < a ∨ a + 6 ≤ q) → (f x m1) q = m q := by
        intro q hq
        rw [h1x q (by omega) (by omega)]
        exact ho q hq
      have hxv : val (f x m1) (elv a x) = g x m := h2 x m1 m ho (hv x List.mem_cons_self)
      obtain ⟨r1, r2, r3⟩ := ih hx.2 (f x m1) ho' (by
        intro p hp
        have hpx : p ≠ x := fun e => hx.1 (e ▸ hp)
        rw [hov p hpx]
        exact hv p (List.mem_cons_of_mem _ hp))
      refine ⟨?_, ?_, r3⟩
      · intro p hp
        rcases List.mem_cons.1 hp with e | e
        · subst e
          rw [List.foldl_cons, r2 p hx.1, hxv]
        · exact r1 p e
      · intro p hp
        have hpx : p ≠ x := fun e => hp (e ▸ List.mem_cons_self)
        have hpl : p ∉ l := fun e => hp (List.mem_cons_of_mem _ e)
        rw [List.foldl_cons, r2 p hpl, hov p hpx]
  obtain ⟨r1, _, r3⟩ := key cols (by decide) m (fun _ _ => rfl) (fun _ _ => rfl)
  exact ⟨fun i => r1 i (by fin_cases i <;> decide), r3⟩

/-- accumulation of products into one complex variable -/
theorem acc_fold {ι : Type} (K : ℕ → ℕ → ℕ → Mem → Mem) (h : ℂ → ℂ → ℂ) (hK : Does3 K (fun x y z => x + h y z))
    (x : ℕ) (y z : ι → ℕ) : ∀ (l : List ι) (m : Mem), (∀ k ∈ l, Apart x (y k)) → (∀ k ∈ l, Apart x (z k)) →
    val (l.foldl (fun m k => K x (y k) (z k) m) m) x = val m x + (l.map fun k => h (val m (y k)) (val m (z k))).sum ∧
    OnlyAt x m (l.foldl (fun m k => K x (y k) (z k) m) m) := by
  intro l
  induction l with
  | nil => intro m _ _; exact ⟨by simp, fun q _ _ => rfl⟩
  | cons k l ih =>
    intro m hy hz
    obtain ⟨e1, e2⟩ := hK x (y k) (z k) m (Or.inr (hy k List.mem_cons_self)) (Or.inr (hz k List.mem_cons_self))
    obtain ⟨r1, r2⟩ := ih (K x (y k) (z k) m) (fun k' h' => hy k' (List.mem_cons_of_mem _ h'))
      (fun k' h' => hz k' (List.mem_cons_of_mem _ h'))
    constructor
    · rw [List.foldl_cons, r1, e1, List.map_cons, List.sum_cons, add_assoc]
      congr 2
      apply congrArg List.sum
      apply List.map_congr_left
      intro k' hk'
      have hy' := hy k' (List.mem_cons_of_mem _ hk')
      have hz' := hz k' (List.mem_cons_of_mem _ hk')
      rw [val_onlyAt e2 (by unfold Apart at hy'; omega), val_onlyAt e2 (by unfold Apart at hz'; omega)]
    · intro q h1 h2
      rw [List.foldl_cons, r2 q h1 h2, e2 q h1 h2]

/-- the same starting from a product instead of from the old value -/
theorem prod_fold {ι : Type} (K0 K : ℕ → ℕ → ℕ → Mem → Mem) (h : ℂ → ℂ → ℂ) (hK0 : Does3Apart K0 (fun _ y z => h y z))
    (hK : Does3 K (fun x y z => x + h y z)) (x : ℕ) (y0 z0 : ℕ) (y z : ι → ℕ) (l : List ι) (m : Mem)
    (hy0 : Apart x y0) (hz0 : Apart x z0) (hy : ∀ k ∈ l, Apart x (y k)) (hz : ∀ k ∈ l, Apart x (z k)) :
    val (l.foldl (fun m k => K x (y k) (z k) m) (K0 x y0 z0 m)) x =
      h (val m y0) (val m z0) + (l.map fun k => h (val m (y k)) (val m (z k))).sum ∧
    OnlyAt x m (l.foldl (fun m k => K x (y k) (z k) m) (K0 x y0 z0 m)) := by
  obtain ⟨e1, e2⟩ := hK0 x y0 z0 m hy0 hz0
  obtain ⟨r1, r2⟩ := acc_fold K h hK x y z l (K0 x y0 z0 m) hy hz
  constructor
  · rw [r1, e1]
    congr 1
    apply congrArg List.sum
    apply List.map_congr_left
    intro k' hk'
    have hy' := hy k' hk'
    have hz' := hz k' hk'
    rw [val_onlyAt e2 (by unfold Apart at hy'; omega), val_onlyAt e2 (by unfold Apart at hz'; omega)]
  · intro q h1 h2
    rw [r2 q h1 h2, e2 q h1 h2]

theorem apart_el {a b : ℕ} (h : MApart a b) (i j k l : Fin 3) : Apart (el a i j) (el b k l) := by
  have := elb a i j; have := elb b k l
  unfold MApart Sep at h; unfold Apart; omega

theorem val_el_out {a b : ℕ} (h : MApart a b) {m m0 : Mem} (ho : ∀ q, (q < a ∨ a + 18 ≤ q) → m q = m0 q) (i j : Fin 3) :
    val m (el b i j) = val m0 (el b i j) := by
  have := elb b i j
  unfold MApart Sep at h
  exact val_congr (ho _ (by omega)) (ho _ (by omega))

/-- kernels of the form `a=Σ_k h(b,c)` -/
theorem prod_does (K0 K : ℕ → ℕ → ℕ → Mem → Mem) (h : ℂ → ℂ → ℂ) (hK0 : Does3Apart K0 (fun _ y z => h y z))
    (hK : Does3 K (fun x y z => x + h y z)) (eb ec : Fin 3 → Fin 3 → Fin 3 → Fin 3 × Fin 3)
    (a b c : ℕ) (m : Mem) (hb : MApart a b) (hc : MApart a c) :
    let op := loop2 fun i j m => [1, 2].foldl (fun m k => K (el a i j) (el b (eb i j k).1 (eb i j k).2)
        (el c (ec i j k).1 (ec i j k).2) m)
      (K0 (el a i j) (el b (eb i j 0).1 (eb i j 0).2) (el c (ec i j 0).1 (ec i j 0).2) m)
    (∀ i j, val (op m) (el a i j) = ∑ k, h (mat m b (eb i j k).1 (eb i j k).2) (mat m c (ec i j k).1 (ec i j k).2)) ∧
    Only a 18 m (op m) := by
  intro op
  apply loop2_spec a _ (fun i j m => ∑ k, h (mat m b (eb i j k).1 (eb i j k).2) (mat m c (ec i j k).1 (ec i j k).2))
  · intro i j m
    exact (prod_fold K0 K h hK0 hK (el a i j) _ _ (fun k => el b (eb i j k).1 (eb i j k).2)
      (fun k => el c (ec i j k).1 (ec i j k).2) [1, 2] m (apart_el hb _ _ _ _) (apart_el hc _ _ _ _)
      (fun k _ => apart_el hb _ _ _ _) (fun k _ => apart_el hc _ _ _ _)).2
  · intro i j m m0 ho _
    rw [(prod_fold K0 K h hK0 hK (el a i j) _ _ (fun k => el b (eb i j k).1 (eb i j k).2)
      (fun k => el c (ec i j k).1 (ec i j k).2) [1, 2] m (apart_el hb _ _ _ _) (apart_el hc _ _ _ _)
      (fun k _ => apart_el hb _ _ _ _) (fun k _ => apart_el hc _ _ _ _)).1]
    simp only [List.map_cons, List.map_nil, List.sum_cons, List.sum_nil, Fin.sum_univ_three, mat, Matrix.of_apply,
      val_el_out hb ho, val_el_out hc ho]
    ring

/-- kernels of the form `a+=Σ_k h(b,c)` -/
theorem acc_does (K : ℕ → ℕ → ℕ → Mem → Mem) (h : ℂ → ℂ → ℂ)
    (hK : Does3 K (fun x y z => x + h y z)) (eb ec : Fin 3 → Fin 3 → Fin 3 → Fin 3 × Fin 3)
    (a b c : ℕ) (m : Mem) (hb : MApart a b) (hc : MApart a c) :
    let op := loop2 fun i j m => cols.foldl (fun m k => K (el a i j) (el b (eb i j k).1 (eb i j k).2)
        (el c (ec i j k).1 (ec i j k).2) m) m
    (∀ i j, val (op m) (el a i j) = mat m a i j + ∑ k, h (mat m b (eb i j k).1 (eb i j k).2) (mat m c (ec i j k).1 (ec i j k).2)) ∧
    Only a 18 m (op m) := by
  intro op
  apply loop2_spec a _ (fun i j m => mat m a i j + ∑ k, h (mat m b (eb i j k).1 (eb i j k).2) (mat m c (ec i j k).1 (ec i j k).2))
  · intro i j m
    exact (acc_fold K h hK (el a i j) (fun k => el b (eb i j k).1 (eb i j k).2)
      (fun k => el c (ec i j k).1 (ec i j k).2) cols m (fun k _ => apart_el hb _ _ _ _) (fun k _ => apart_el hc _ _ _ _)).2
  · intro i j m m0 ho hv
    rw [(acc_fold K h hK (el a i j) (fun k => el b (eb i j k).1 (eb i j k).2)
      (fun k => el c (ec i j k).1 (ec i j k).2) cols m (fun k _ => apart_el hb _ _ _ _) (fun k _ => apart_el hc _ _ _ _)).1]
    simp only [cols, List.map_cons, List.map_nil, List.sum_cons, List.sum_nil, Fin.sum_univ_three, mat, Matrix.of_apply,
      val_el_out hb ho, val_el_out hc ho, hv]
    ring

theorem msame_el {a b : ℕ} (h : MSame a b) (i j : Fin 3) : Same_or_apart (el a i j) (el b i j) := by
  rcases h with h | h
  · left; rw [h]
  · right; exact apart_el h i j i j

theorem val_same {a b : ℕ} (h : MSame a b) {m m0 : Mem} (ho : ∀ q, (q < a ∨ a + 18 ≤ q) → m q = m0 q) (i j : Fin 3)
    (hv : val m (el a i j) = val m0 (el a i j)) : val m (el b i j) = val m0 (el b i j) := by
  rcases h with h | h
  · rw [← h]; exact hv
  · exact val_el_out h ho i j

/-- element by element kernels of two matrices -/
theorem elem3 (K : ℕ → ℕ → ℕ → Mem → Mem) (h : ℂ → ℂ → ℂ → ℂ) (hK : Does3 K h) (a b c : ℕ) (m : Mem)
    (hb : MSame a b) (hc : MSame a c) :
    (∀ i j, val (loop2 (fun i j => K (el a i j) (el b i j) (el c i j)) m) (el a i j) = h (mat m a i j) (mat m b i j) (mat m c i j)) ∧
    Only a 18 m (loop2 (fun i j => K (el a i j) (el b i j) (el c i j)) m) := by
  apply loop2_spec a _ (fun i j m => h (mat m a i j) (mat m b i j) (mat m c i j))
  · intro i j m
    exact (hK _ _ _ m (msame_el hb i j) (msame_el hc i j)).2
  · intro i j m m0 ho hv
    rw [(hK _ _ _ m (msame_el hb i j) (msame_el hc i j)).1, hv, val_same hb ho i j hv, val_same hc ho i j hv]
    rfl

/-- element by element kernels of one matrix -/
theorem elem2 (K : ℕ → ℕ → Mem → Mem) (h : ℂ → ℂ → ℂ) (hK : Does2 K h) (a b : ℕ) (m : Mem) (hb : MSame a b) :
    (∀ i j, val (loop2 (fun i j => K (el a i j) (el b i j)) m) (el a i j) = h (mat m a i j) (mat m b i j)) ∧
    Only a 18 m (loop2 (fun i j => K (el a i j) (el b i j)) m) := by
  apply loop2_spec a _ (fun i j m => h (mat m a i j) (mat m b i j))
  · intro i j m
    exact (hK _ _ m (msame_el hb i j)).2
  · intro i j m m0 ho hv
    rw [(hK _ _ m (msame_el hb i j)).1, hv, val_same hb ho i j hv]
    rfl

/-- kernels reading the transposed element -/
theorem tran2 (K : ℕ → ℕ → Mem → Mem) (h : ℂ → ℂ → ℂ) (hK : Does2 K h) (a b : ℕ) (m : Mem) (hb : MApart a b) :
    (∀ i j, val (loop2 (fun i j => K (el a i j) (el b j i)) m) (el a i j) = h (mat m a i j) (mat m b j i)) ∧
    Only a 18 m (loop2 (fun i j => K (el a i j) (el b j i)) m) := by
  apply loop2_spec a _ (fun i j m => h (mat m a i j) (mat m b j i))
  · intro i j m
    exact (hK _ _ m (Or.inr (apart_el hb i j j i))).2
  · intro i j m m0 ho hv
    rw [(hK _ _ m (Or.inr (apart_el hb i j j i))).1, hv, val_el_out hb ho j i]
    rfl

theorem tran3 (K : ℕ → ℕ → ℕ → Mem → Mem) (h : ℂ → ℂ → ℂ → ℂ) (hK : Does3 K h) (a b c : ℕ) (m : Mem)
    (hb : MSame a b) (hc : MApart a c) :
    (∀ i j, val (loop2 (fun i j => K (el a i j) (el b i j) (el c j i)) m) (el a i j) = h (mat m a i j) (mat m b i j) (mat m c j i)) ∧
    Only a 18 m (loop2 (fun i j => K (el a i j) (el b i j) (el c j i)) m) := by
  apply loop2_spec a _ (fun i j m => h (mat m a i j) (mat m b i j) (mat m c j i))
  · intro i j m
    exact (hK _ _ _ m (msame_el hb i j) (Or.inr (apart_el hc i j j i))).2
  · intro i j m m0 ho hv
    rw [(hK _ _ _ m (msame_el hb i j) (Or.inr (apart_el hc i j j i))).1, hv, val_same hb ho i j hv, val_el_out hc ho j i]
    rfl

theorem copy_spec (a b : ℕ) (m : Mem) (hb : MSame a b) : mat (su3_copy a b m) a = mat m b ∧ Only a 18 m (su3_copy a b m) := by
  obtain ⟨h1, h2⟩ := elem2 complex_copy _ (C31_complex_one_input 0).1 a b m hb
  exact ⟨by ext i j; exact h1 i j, h2⟩

/-- from a kernel correct on distinct matrices to its version with a local matrix -/
theorem safe_of_apart (op : ℕ → ℕ → ℕ → Mem → Mem) (f : Matrix (Fin 3) (Fin 3) ℂ → Matrix (Fin 3) (Fin 3) ℂ → Matrix (Fin 3) (Fin 3) ℂ)
    (h : MDoesApart op (fun _ y z => f y z)) : MDoesSafe (fun tmp a b c m => su3_copy a tmp (op tmp b c m)) f := by
  intro tmp a b c m ha hb hc
  obtain ⟨h1, h2⟩ := h tmp b c m hb hc
  have ha' : MSame a tmp := by right; unfold MApart Sep at *; omega
  obtain ⟨k1, k2⟩ := copy_spec a tmp (op tmp b c m) ha'
  refine ⟨by rw [k1, h1], ?_⟩
  intro q hq hq'
  show su3_copy a tmp (op tmp b c m) q = m q
  rw [k2 q hq, h2 q hq']

end Nissa.Su3
