import Verif.Ib.PropsContr1

/-! # C63: meson contractions, version on the cpu -/

set_option linter.all false

namespace Nissa.Contr
open Nissa.Lx Nissa.Sten Nissa.Su3f Nissa.Gauge Nissa.Gamma Nissa.StD Nissa.Wilson Matrix Complex

noncomputable section

/-! ### Indices -/

theorem radix {n a b c d : Nat} (ha : a < n) (hc : c < n) (h : a + n * b = c + n * d) : a = c ∧ b = d := by
  have h1 : (a + n * b) % n = (c + n * d) % n := by rw [h]
  rw [Nat.add_mul_mod_self_left, Nat.add_mul_mod_self_left, Nat.mod_eq_of_lt ha, Nat.mod_eq_of_lt hc] at h1
  subst h1
  exact ⟨rfl, Nat.eq_of_mul_eq_mul_left (by omega) (by omega : n * b = n * d)⟩

theorem nSo_eq {nso_spi : Nat} (hs : 0 < nso_spi) : nSoSpiSiSpiRi nso_spi = 8 * nso_spi := by
  unfold nSoSpiSiSpiRi soSpiSiSpiRiId; omega

/-- the index of the buffer for a couple time, spins -/
theorem id_base (nso_spi nc sv loc0 bf t s b a sp : Nat) :
    id nso_spi nc sv loc0 bf t s b a sp = id nso_spi nc sv loc0 bf t s 0 0 0 + (sp + sv * (a + 3 * b)) := by
  unfold id; ring

theorem bufSize_eq {nso_spi nc sv : Nat} (hs : 0 < nso_spi) (hn : 0 < nc) (hv : 0 < sv) (loc0 : Nat) : bufSize nso_spi nc sv loc0 = sv * (3 * (nc * (8 * nso_spi * (2 * loc0 + 1)))) := by
  unfold bufSize id
  rw [nSo_eq hs]
  obtain ⟨m, rfl⟩ : ∃ m, nso_spi = m + 1 := ⟨nso_spi - 1, by omega⟩
  obtain ⟨n, rfl⟩ : ∃ m, nc = m + 1 := ⟨nc - 1, by omega⟩
  obtain ⟨v, rfl⟩ : ∃ m, sv = m + 1 := ⟨sv - 1, by omega⟩
  rw [show 8 * (m + 1) - 1 = 8 * m + 7 by omega]
  simp only [Nat.add_sub_cancel]
  ring

theorem base_le {nso_spi nc sv loc0 bf t s : Nat} (hs : 0 < nso_spi) (hn : 0 < nc) (hv : 0 < sv) (hb : bf < 2) (ht : t < loc0) (h : s < 8 * nso_spi) :
    id nso_spi nc sv loc0 bf t s 0 0 0 + sv * nc * 3 ≤ bufSize nso_spi nc sv loc0 := by
  rw [bufSize_eq hs hn hv]
  unfold id
  rw [nSo_eq hs]
  have h1 : t + loc0 * bf + 1 ≤ 2 * loc0 + 1 := by
    have : loc0 * bf ≤ loc0 * 1 := Nat.mul_le_mul_left _ (by omega)
    omega
  have h2 : s + 8 * nso_spi * (t + loc0 * bf) + 1 ≤ 8 * nso_spi * (2 * loc0 + 1) := by
    have := Nat.mul_le_mul_left (8 * nso_spi) h1
    rw [Nat.mul_add, Nat.mul_one] at this
    omega
  have := Nat.mul_le_mul_left (sv * (3 * nc)) h2
  calc _ = sv * (3 * nc) * (s + 8 * nso_spi * (t + loc0 * bf) + 1) := by ring
    _ ≤ _ := this
    _ = _ := by ring

theorem toInt32_small {n : Nat} (h : n < 2 ^ 31) : toInt32 n = (n : Int) := by
  unfold toInt32
  rw [Int.emod_eq_of_lt (by omega) (by omega)]; omega

theorem spin_lt {i k ri n : Nat} (hi : i < n) (hk : k < 4) (hr : ri < 2) : soSpiSiSpiRiId i k ri < 8 * n := by
  unfold soSpiSiSpiRiId; omega

/-! ### Filling of the buffer -/

theorem soSpins_mem {nso_spi : Nat} {i : Fin 4} (hs : nso_spi = 4 ∨ nso_spi = 1) : i ∈ soSpins nso_spi ↔ i.val < nso_spi := by
  rcases hs with h | h
  · subst h; rw [soSpins_four]; exact ⟨fun _ => i.isLt, fun _ => List.mem_finRange i⟩
  · subst h; rw [soSpins_one, List.mem_singleton, Fin.ext_iff, Fin.val_zero]; omega

theorem soSpins_nodup (nso_spi : Nat) : (soSpins nso_spi).Nodup := (List.nodup_finRange 4).sublist (List.take_sublist _ _)

abbrev FillIx := Fin 4 × Nat × Nat × Nat × Fin 3 × Fin 4 × Nat

/-- index filled at a step -/
def fillKey (nso_spi nc sv loc0 : Nat) (x : FillIx) : Nat :=
  id nso_spi nc sv loc0 x.2.2.1 (x.2.2.2.1 / sv) (soSpiSiSpiRiId x.1 x.2.2.2.2.2.1 x.2.2.2.2.2.2) x.2.1 x.2.2.2.2.1 (x.2.2.2.1 % sv)

theorem fillKey_inj {nso_spi nc sv loc0 : Nat} (hs : nso_spi = 4 ∨ nso_spi = 1) (hv : 0 < sv) :
    ∀ x ∈ fillLoop nso_spi nc (sv * loc0), ∀ y ∈ fillLoop nso_spi nc (sv * loc0), fillKey nso_spi nc sv loc0 x = fillKey nso_spi nc sv loc0 y → x = y := by
  rintro ⟨i, b, f, v, a, k, r⟩ hx ⟨i', b', f', v', a', k', r'⟩ hy h
  unfold fillLoop at hx hy
  simp only [List.mem_product, List.mem_range, List.mem_finRange, soSpins_mem hs, true_and] at hx hy
  obtain ⟨x1, x2, x3, x4, x5⟩ := hx
  obtain ⟨y1, y2, y3, y4, y5⟩ := hy
  have hp : 0 < nso_spi := by omega
  unfold fillKey id at h
  simp only at h
  obtain ⟨e1, h⟩ := radix (Nat.mod_lt _ hv) (Nat.mod_lt _ hv) h
  obtain ⟨e2, h⟩ := radix a.isLt a'.isLt h
  obtain ⟨e3, h⟩ := radix x2 y2 h
  rw [nSo_eq hp] at h
  obtain ⟨e4, h⟩ := radix (spin_lt x1 k.isLt x5) (spin_lt y1 k'.isLt y5) h
  obtain ⟨e5, h6⟩ := radix (Nat.div_lt_of_lt_mul x4) (Nat.div_lt_of_lt_mul y4) h
  unfold soSpiSiSpiRiId at e4
  have hk := k.isLt
  have hk' := k'.isLt
  have q1 : i = i' := Fin.ext (by omega)
  have q2 : k = k' := Fin.ext (by omega)
  have q3 : r = r' := by omega
  have q4 : v = v' := by rw [← Nat.div_add_mod v sv, ← Nat.div_add_mod v' sv, e1, e5]
  clear h
  subst q1 q2 q3 q4 e3 h6
  rw [Fin.ext e2]

theorem fillBuf_val {nso_spi nc sv loc0 : Nat} (hs : nso_spi = 4 ∨ nso_spi = 1) (hv : 0 < sv) (Q1 Q2 : QProp) (rk : Nat) {x : FillIx} (hx : x ∈ fillLoop nso_spi nc (sv * loc0)) :
    fillBuf nso_spi nc sv loc0 (sv * loc0) Q1 Q2 rk (fillKey nso_spi nc sv loc0 x) =
      word ((if x.2.2.1 = 0 then Q1 else Q2) (so_sp_col_ind nc x.1 x.2.1) rk x.2.2.2.1 x.2.2.2.2.2.1 x.2.2.2.2.1) x.2.2.2.2.2.2 := by
  have hn : (fillLoop nso_spi nc (sv * loc0)).Nodup := by
    unfold fillLoop
    exact (soSpins_nodup _).product (List.nodup_range.product (List.nodup_range.product (List.nodup_range.product
      ((List.nodup_finRange _).product ((List.nodup_finRange _).product List.nodup_range)))))
  exact Stag.fold_upd (fillKey nso_spi nc sv loc0) (fun (_ : ℝ) x => word ((if x.2.2.1 = 0 then Q1 else Q2) (so_sp_col_ind nc x.1 x.2.1) rk x.2.2.2.1 x.2.2.2.2.2.1 x.2.2.2.2.1) x.2.2.2.2.2.2)
    _ hn (fillKey_inj hs hv) (fun _ => 0) x hx

theorem sum_radix {M : Type} [AddCommMonoid M] (m n : Nat) (f : Nat → M) : ∑ i ∈ Finset.range (n * m), f i = ∑ b ∈ Finset.range m, ∑ a ∈ Finset.range n, f (a + n * b) := by
  rw [Finset.sum_comm]
  rw [Finset.sum_range, Finset.sum_range]
  simp_rw [Finset.sum_range]
  rw [Finset.sum_comm, ← Fintype.sum_prod_type' (f := fun (b : Fin m) (a : Fin n) => f (a + n * b)), ← Equiv.sum_comp (finProdFinEquiv.trans (finCongr (Nat.mul_comm m n)))]
  rfl

/-- the product of the two blocks of the buffer -/
theorem block_prod {nso_spi nc sv loc0 : Nat} (hs : nso_spi = 4 ∨ nso_spi = 1) (hv : 0 < sv) (Q1 Q2 : QProp) (rk : Nat) {t : Nat} (ht : t < loc0)
    {i j : Fin 4} (hi : i.val < nso_spi) (hj : j.val < nso_spi) (k l : Fin 4) {r r' : Nat} (hr : r < 2) (hr' : r' < 2) :
    ∑ q ∈ Finset.range (sv * nc * 3), fillBuf nso_spi nc sv loc0 (sv * loc0) Q1 Q2 rk (id nso_spi nc sv loc0 0 t (soSpiSiSpiRiId i k r) 0 0 0 + q) *
        fillBuf nso_spi nc sv loc0 (sv * loc0) Q1 Q2 rk (id nso_spi nc sv loc0 1 t (soSpiSiSpiRiId j l r') 0 0 0 + q) =
      ∑ b : Fin nc, ∑ a : Fin 3, ∑ sp ∈ Finset.range sv, word (Q1 (so_sp_col_ind nc i b) rk (sp + sv * t) k a) r * word (Q2 (so_sp_col_ind nc j b) rk (sp + sv * t) l a) r' := by
  rw [show sv * nc * 3 = sv * (3 * nc) by ring, sum_radix, sum_radix, Finset.sum_range]
  refine Finset.sum_congr rfl fun b _ => ?_
  rw [Finset.sum_range]
  refine Finset.sum_congr rfl fun a _ => Finset.sum_congr rfl fun sp hsp => ?_
  have hsp := Finset.mem_range.1 hsp
  have e : ∀ (bf : Nat) (i k : Fin 4) (r : Nat), id nso_spi nc sv loc0 bf t (soSpiSiSpiRiId i k r) 0 0 0 + (sp + sv * (a + 3 * b)) =
      fillKey nso_spi nc sv loc0 (i, b, bf, sp + sv * t, a, k, r) := by
    intro bf i k r
    rw [← id_base]
    unfold fillKey
    simp only
    rw [Nat.add_mul_mod_self_left, Nat.mod_eq_of_lt hsp, Nat.add_mul_div_left _ _ hv, Nat.div_eq_of_lt hsp, Nat.zero_add]
  have hin : sp + sv * t < sv * loc0 := by
    have := Nat.mul_le_mul_left sv (show t + 1 ≤ loc0 by omega)
    rw [Nat.mul_add, Nat.mul_one] at this
    omega
  rw [e, e, fillBuf_val hs hv, fillBuf_val hs hv]
  · simp
  · unfold fillLoop
    simp only [List.mem_product, List.mem_range, List.mem_finRange, soSpins_mem hs, true_and]
    exact ⟨hj, b.isLt, by omega, hin, hr'⟩
  · unfold fillLoop
    simp only [List.mem_product, List.mem_range, List.mem_finRange, soSpins_mem hs, true_and]
    exact ⟨hi, b.isLt, by omega, hin, hr⟩

/-! ### Grouping -/

theorem filter_sum {A : Type} (p : A → Prop) [DecidablePred p] (f : A → ℝ) (l : List A) : ((l.filter p).map f).sum = (l.map fun x => if p x then f x else 0).sum := by
  induction l with
  | nil => rfl
  | cons x l ih =>
    by_cases h : p x
    · rw [List.filter_cons_of_pos (by simpa using h), List.map_cons, List.sum_cons, List.map_cons, List.sum_cons, ih, if_pos h]
    · rw [List.filter_cons_of_neg (by simpa using h), List.map_cons, List.sum_cons, ih, if_neg h, zero_add]

/-- the sum over the elements of the map is the sum over all the contributions -/
theorem group_sum (all : List ((Nat × Nat) × (Nat × Nat) × ℝ)) (f : Nat × Nat → (Nat × Nat) × ℝ → ℝ) :
    ((contrContrs all).map fun x => (x.2.map (f x.1)).sum).sum = (all.map fun y => f y.1 y.2).sum := by
  unfold contrContrs
  rw [List.map_map]
  have e : ((fun x : (Nat × Nat) × List ((Nat × Nat) × ℝ) => (x.2.map (f x.1)).sum) ∘ fun key => (key, (all.filter fun x => x.1 = key).map fun x => x.2)) =
      fun key => (all.map fun y => if y.1 = key then f y.1 y.2 else 0).sum := by
    funext key
    show (((all.filter fun x => x.1 = key).map fun x => x.2).map (f key)).sum = _
    rw [List.map_map, filter_sum (fun x : (Nat × Nat) × (Nat × Nat) × ℝ => x.1 = key)]
    congr 1
    refine List.map_congr_left fun y _ => ?_
    by_cases h : y.1 = key
    · rw [if_pos h, if_pos h, ← h]; rfl
    · rw [if_neg h, if_neg h]
  rw [e, ← List.sum_toFinset _ (List.nodup_dedup _)]
  have : ∀ (S : Finset (Nat × Nat)) (l : List ((Nat × Nat) × (Nat × Nat) × ℝ)), (∀ y ∈ l, y.1 ∈ S) →
      ∑ key ∈ S, (l.map fun y => if y.1 = key then f y.1 y.2 else 0).sum = (l.map fun y => f y.1 y.2).sum := by
    intro S l
    induction l with
    | nil => intro _; simp
    | cons y l ih =>
      intro h
      simp only [List.map_cons, List.sum_cons]
      rw [Finset.sum_add_distrib, ih (fun z hz => h z (List.mem_cons_of_mem _ hz)), Finset.sum_ite_eq, if_pos (h y List.mem_cons_self)]
  refine this _ _ fun y hy => ?_
  simp only [List.mem_toFinset, List.mem_dedup]
  exact List.mem_map_of_mem hy

/-- all the elements of the map come from the contributions -/
theorem group_keys {all : List ((Nat × Nat) × (Nat × Nat) × ℝ)} {x : (Nat × Nat) × List ((Nat × Nat) × ℝ)} (h : x ∈ contrContrs all) : ∃ y ∈ all, y.1 = x.1 := by
  unfold contrContrs at h
  obtain ⟨k, hk, rfl⟩ := List.mem_map.1 h
  rw [List.mem_dedup] at hk
  exact List.mem_map.1 hk

/-! ### Accumulation -/

theorem upd2_fold {A : Type} (key : A → Nat) (ri : A → Nat) (val : A → ℝ) : ∀ (l : List A) (glb : Nat → Nat → ℝ) (k r : Nat),
    (l.foldl (fun (glb : Nat → Nat → ℝ) c => Function.update glb (key c) (Function.update (glb (key c)) (ri c) (glb (key c) (ri c) + val c))) glb) k r =
      glb k r + (l.map fun c => if key c = k ∧ ri c = r then val c else 0).sum := by
  intro l
  induction l with
  | nil => intro glb k r; simp
  | cons c l ih =>
    intro glb k r
    rw [List.foldl_cons, ih, List.map_cons, List.sum_cons, ← add_assoc]
    congr 1
    by_cases h : key c = k
    · subst h
      rw [Function.update_self]
      by_cases h' : ri c = r
      · subst h'; rw [Function.update_self, if_pos ⟨rfl, rfl⟩]
      · rw [Function.update_of_ne (Ne.symm h'), if_neg (fun x => h' x.2), add_zero]
    · rw [Function.update_of_ne (Ne.symm h), if_neg (fun x => h x.1), add_zero]

theorem foldlM_add {A : Type} (F : (Nat → Nat → ℝ) → A → Option (Nat → Nat → ℝ)) (d : A → Nat → Nat → ℝ) : ∀ (l : List A) (_ : ∀ x ∈ l, ∀ glb, ∃ out, F glb x = some out ∧ ∀ k r, out k r = glb k r + d x k r)
    (glb : Nat → Nat → ℝ), ∃ out, l.foldlM F glb = some out ∧ ∀ k r, out k r = glb k r + (l.map fun x => d x k r).sum := by
  intro l
  induction l with
  | nil => intro _ glb; exact ⟨glb, rfl, fun k r => by simp⟩
  | cons x l ih =>
    intro h glb
    obtain ⟨o, h1, h2⟩ := h x List.mem_cons_self glb
    obtain ⟨o', h3, h4⟩ := ih (fun y hy => h y (List.mem_cons_of_mem _ hy)) o
    refine ⟨o', ?_, fun k r => ?_⟩
    · rw [List.foldlM_cons, h1]; exact h3
    · rw [h4, h2, List.map_cons, List.sum_cons, add_assoc]

theorem list_sum_product {A B : Type} (l : List A) (m : List B) (f : A → B → ℝ) : ((l ×ˢ m).map fun x => f x.1 x.2).sum = (l.map fun a => (m.map fun b => f a b).sum).sum := by
  induction l with
  | nil => rfl
  | cons a l ih => rw [List.product_cons, List.map_append, List.sum_append, ih, List.map_map, List.map_cons, List.sum_cons]; rfl

theorem list_sum_comm {A B : Type} (l : List A) (m : List B) (f : A → B → ℝ) : (l.map fun a => (m.map fun b => f a b).sum).sum = (m.map fun b => (l.map fun a => f a b).sum).sum := by
  induction l with
  | nil => simp
  | cons a l ih => simp only [List.map_cons, List.sum_cons, ih, ← List.sum_map_add]

/-- one contribution to the result, for the values of the products of the buffer -/
def cpuTerm (L ori first : Nat) (norm : ℝ) (S : Nat × Nat → Nat → ℝ) (k r : Nat) (key : Nat × Nat) (locT : Nat) (c : (Nat × Nat) × ℝ) : ℝ :=
  if (locT + L - ori + first) % L + L * c.1.1 = k ∧ c.1.2 = r then S key locT * c.2 * norm else 0

theorem cpuBody_spec {nso_spi nc sv loc0 : Nat} (hs : 0 < nso_spi) (hn : 0 < nc) (hv : 0 < sv) (hb : bufSize nso_spi nc sv loc0 ≤ 2 ^ 31) (L ori first : Nat) (norm : ℝ) (v : Nat → ℝ)
    (x : ((Nat × Nat) × List ((Nat × Nat) × ℝ)) × Nat) (h1 : x.1.1.1 < 8 * nso_spi) (h2 : x.1.1.2 < 8 * nso_spi) (h3 : x.2 < loc0) (glb : Nat → Nat → ℝ) :
    ∃ out, cpuBody nso_spi nc sv loc0 L ori first norm v glb x = some out ∧ ∀ k r, out k r = glb k r + (x.1.2.map (cpuTerm L ori first norm
      (fun key t => ∑ q ∈ Finset.range (sv * nc * 3), v (id nso_spi nc sv loc0 0 t key.1 0 0 0 + q) * v (id nso_spi nc sv loc0 1 t key.2 0 0 0 + q)) k r x.1.1 x.2)).sum := by
  have b0 := base_le hs hn hv (show 0 < 2 by omega) h3 h1
  have b1 := base_le hs hn hv (show 1 < 2 by omega) h3 h2
  have hp : 0 < sv * nc * 3 := by positivity
  have t0 := toInt32_small (show id nso_spi nc sv loc0 0 x.2 x.1.1.1 0 0 0 < 2 ^ 31 by omega)
  have t1 := toInt32_small (show id nso_spi nc sv loc0 1 x.2 x.1.1.2 0 0 0 < 2 ^ 31 by omega)
  obtain ⟨⟨key, cs⟩, t⟩ := x
  unfold cpuBody
  simp only at t0 t1 b0 b1 ⊢
  rw [t0, t1]
  simp only [Int.toNat_natCast]
  rw [if_pos ⟨Int.natCast_nonneg _, b0, Int.natCast_nonneg _, b1⟩]
  refine ⟨_, rfl, fun k r => ?_⟩
  rw [upd2_fold (fun c : (Nat × Nat) × ℝ => (t + L - ori + first) % L + L * c.1.1) (fun c => c.1.2)
    (fun c => (∑ q ∈ Finset.range (sv * nc * 3), v (id nso_spi nc sv loc0 0 t key.1 0 0 0 + q) * v (id nso_spi nc sv loc0 1 t key.2 0 0 0 + q)) * c.2 * norm)]
  rfl

end

end Nissa.Contr
