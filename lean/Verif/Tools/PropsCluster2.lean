import Verif.Tools.Cluster2
import Verif.Tools.PropsCluster
import Mathlib.Algebra.BigOperators.Intervals
/-!
C91: the jackknife tool clusterize2.
-/
set_option linter.all false
namespace Nissa.Clust
open Finset

/-! ### Specification -/

/-- The lines of a file with something, apart from titles. -/
def content (f : List Line2) : List Line2 :=
  f.filter fun l => l ≠ .head ∧ l ≠ .spaces ∧ l ≠ .empty

/-- The numbers of combination `c`, type `y` and time `t` of a file: the combinations follow one another,
with the types inside. -/
def HasAt (p : Pars) (f : List Line2) (c y t : ℕ) (v : ℚ × ℚ) : Prop :=
  (content f)[(c * p.ntype + y) * p.T + t]? = some (.nums v.1 v.2)

/-- Mean over the configurations `s` and over all the copies. -/
def mean2 (s : Finset ℕ) (ncopies : ℕ) (x : ℕ → ℕ → ℚ) : ℚ :=
  (∑ i ∈ s, ∑ c ∈ range ncopies, x c i) / (#s * ncopies)

/-! ### Reading -/

theorem toCorr_content (f : List Line2) : content (toCorr f) = content f := by
  induction f with
  | nil => rfl
  | cons l f ih =>
    cases l <;> simp [toCorr, content] at ih ⊢ <;> first | exact ih | rfl

theorem readLines_some : ∀ (n : ℕ) (f : List Line2) v r, readLines n f = some (v, r) → v.length = n ∧
    content f = v.map (fun a => Line2.nums a.1 a.2) ++ content r := by
  intro n f
  induction f generalizing n with
  | nil =>
    intro v r h
    cases n with
    | zero => simp only [readLines, Option.some.injEq, Prod.mk.injEq] at h; obtain ⟨rfl, rfl⟩ := h; simp
    | succ n => simp [readLines] at h
  | cons l f ih =>
    intro v r h
    cases n with
    | zero => simp only [readLines, Option.some.injEq, Prod.mk.injEq] at h; obtain ⟨rfl, rfl⟩ := h; simp
    | succ n =>
      cases l with
      | spaces => simpa [content] using ih (n + 1) v r h
      | empty => simpa [content] using ih (n + 1) v r h
      | nums a b =>
        simp only [readLines] at h
        rw [Option.map_eq_some_iff] at h
        obtain ⟨⟨v', r'⟩, hv, he⟩ := h
        injection he with h1 h2; subst h1 h2
        obtain ⟨h1, h2⟩ := ih n v' r' hv
        refine ⟨by simp [h1], ?_⟩
        simpa [content] using h2
      | head => simp [readLines] at h
      | other => simp [readLines] at h

theorem readFile_some {T : ℕ} : ∀ (n : ℕ) (f : List Line2) v, readFile T n f = some v →
    v.length = n * T ∧ content f = v.map fun a => Line2.nums a.1 a.2 := by
  intro n
  induction n with
  | zero =>
    intro f v h
    rw [readFile] at h
    split at h
    · rename_i hf
      injection h with h; subst h
      refine ⟨by simp, ?_⟩
      rw [List.map_nil, content, List.filter_eq_nil_iff]
      intro a ha
      have := List.all_eq_true.1 hf a ha
      simp at this
      simp [this]
    · cases h
  | succ n ih =>
    intro f v h
    rw [readFile] at h
    split at h
    · cases h
    · rename_i w rest hw
      rw [Option.map_eq_some_iff] at h
      obtain ⟨r, hr, rfl⟩ := h
      obtain ⟨h1, h2⟩ := readLines_some _ _ _ _ hw
      obtain ⟨h3, h4⟩ := ih rest r hr
      refine ⟨by rw [List.length_append, h1, h3]; ring, ?_⟩
      rw [← toCorr_content, h2, h4, List.map_append]

/-! ### Sums -/

/-- Sum of what is added at place `i`. -/
def addedAt (i : ℕ) (l : List (ℕ × ℚ)) : ℚ := (l.map fun a => if a.1 = i then a.2 else 0).sum

theorem addedAt_append (i : ℕ) (l m : List (ℕ × ℚ)) : addedAt i (l ++ m) = addedAt i l + addedAt i m := by
  simp [addedAt]

theorem addedAt_flatMap (i n : ℕ) (f : ℕ → List (ℕ × ℚ)) :
    addedAt i ((List.range n).flatMap f) = ∑ k ∈ range n, addedAt i (f k) := by
  induction n with
  | zero => simp [addedAt]
  | succ n ih => rw [List.range_succ, List.flatMap_append, addedAt_append, ih, sum_range_succ]; simp

theorem fold_adds (i : ℕ) (l : List (ℕ × ℚ)) (d : ℕ → ℚ) :
    (l.foldl (fun d a => Function.update d a.1 (d a.1 + a.2)) d) i = d i + addedAt i l := by
  induction l generalizing d with
  | nil => simp [addedAt]
  | cons a l ih =>
    rw [List.foldl_cons, ih]
    by_cases h : a.1 = i
    · subst h; simp [addedAt]; ring
    · rw [Function.update_of_ne (Ne.symm h)]; simp [addedAt, h]

theorem accumulate_eq (i : ℕ) (l : List (ℕ × ℚ)) : accumulate l i = addedAt i l := by
  unfold accumulate; rw [fold_adds]; ring

theorem radix {m a b a' b' : ℕ} (h : a + m * b = a' + m * b') (ha : a < m) (ha' : a' < m) : a = a' ∧ b = b' := by
  have h1 := congrArg (· % m) h
  simp only [Nat.add_mul_mod_self_left, Nat.mod_eq_of_lt ha, Nat.mod_eq_of_lt ha'] at h1
  subst h1
  have : m * b = m * b' := by omega
  exact ⟨rfl, Nat.eq_of_mul_eq_mul_left (by omega) this⟩

/-- C91: different clusters, times, parts, combinations and types have different places, so that threads
with different clusters never touch the same number. -/
theorem C91_places_are_distinct (p : Pars) {a t r c y a' t' r' c' y' : ℕ} (ha : a ≤ p.nj) (ha' : a' ≤ p.nj)
    (ht : t < p.T) (ht' : t' < p.T) (hr : r < p.reim) (hr' : r' < p.reim) (hc : c < p.ncombo) (hc' : c' < p.ncombo) :
    p.idx a t r c y = p.idx a' t' r' c' y' ↔ a = a' ∧ t = t' ∧ r = r' ∧ c = c' ∧ y = y' := by
  constructor
  · intro h
    unfold Pars.idx at h
    obtain ⟨h1, h⟩ := radix h (by omega) (by omega)
    obtain ⟨h2, h⟩ := radix h ht ht'
    obtain ⟨h3, h⟩ := radix h hr hr'
    obtain ⟨h4, h⟩ := radix h hc hc'
    exact ⟨h1, h2, h3, h4, h⟩
  · rintro ⟨rfl, rfl, rfl, rfl, rfl⟩; rfl

/-- C91: the places are inside of what is allocated. -/
theorem C91_places_are_allocated (p : Pars) {a t r c y : ℕ} (ha : a ≤ p.nj) (ht : t < p.T) (hr : r < p.reim)
    (hc : c < p.ncombo) (hy : y < p.ntype) : p.idx a t r c y < p.size := by
  have h1 : c + p.ncombo * y < p.ncombo * p.ntype := by
    have : p.ncombo * (y + 1) ≤ p.ncombo * p.ntype := Nat.mul_le_mul_left _ hy
    rw [Nat.mul_add] at this; omega
  have h2 : r + p.reim * (c + p.ncombo * y) < p.reim * (p.ncombo * p.ntype) := by
    have : p.reim * (c + p.ncombo * y + 1) ≤ p.reim * (p.ncombo * p.ntype) := Nat.mul_le_mul_left _ h1
    rw [Nat.mul_add] at this; omega
  have h3 : t + p.T * (r + p.reim * (c + p.ncombo * y)) < p.T * (p.reim * (p.ncombo * p.ntype)) := by
    have : p.T * (r + p.reim * (c + p.ncombo * y) + 1) ≤ p.T * (p.reim * (p.ncombo * p.ntype)) :=
      Nat.mul_le_mul_left _ h2
    rw [Nat.mul_add] at this; omega
  have h4 : (p.nj + 1) * (t + p.T * (r + p.reim * (c + p.ncombo * y)) + 1) ≤
      (p.nj + 1) * (p.T * (p.reim * (p.ncombo * p.ntype))) := Nat.mul_le_mul_left _ h3
  rw [Nat.mul_add] at h4
  have h5 : p.size = (p.nj + 1) * (p.T * (p.reim * (p.ncombo * p.ntype))) := by unfold Pars.size; ring
  rw [h5]
  unfold Pars.idx
  omega

/-- The number read for a part. -/
def part (p : Pars) (v : List (ℚ × ℚ)) (c y t ri : ℕ) : ℚ :=
  let w := v.getD ((c * p.ntype + y) * p.T + t) (0, 0)
  if ri = 0 then w.1 else w.2

theorem adds_at (p : Pars) (hp : p.new = false) (junk : ℚ) (iconf : ℕ) (v : List (ℚ × ℚ)) {j t ri c y : ℕ}
    (hi : iconf / p.cs ≤ p.nj) (hj : j ≤ p.nj) (ht : t < p.T) (hr : ri < 2) (hc : c < p.ncombo) (hy : y < p.ntype) :
    addedAt (p.idx j t ri c y) (p.adds junk iconf v) = if iconf / p.cs = j then part p v c y t ri else 0 := by
  have hre : p.reim = 2 := by simp [Pars.reim, hp]
  unfold Pars.adds
  rw [addedAt_flatMap]
  have h : ∀ c' ∈ range p.ncombo, ∀ y' ∈ range p.ntype, ∀ t' ∈ range p.T,
      addedAt (p.idx j t ri c y)
        [(p.idx (iconf / p.cs) t' 0 c' y', (v.getD ((c' * p.ntype + y') * p.T + t') (0, 0)).1),
         (p.idx (iconf / p.cs) t' 1 c' y', if p.new then junk else (v.getD ((c' * p.ntype + y') * p.T + t') (0, 0)).2)] =
      if c' = c then (if y' = y then (if t' = t then (if iconf / p.cs = j then part p v c y t ri else 0) else 0) else 0)
        else 0 := by
    intro c' hc' y' hy' t' ht'
    rw [mem_range] at hc' ht'
    simp only [addedAt, List.map_cons, List.map_nil, List.sum_cons, List.sum_nil, hp]
    simp only [C91_places_are_distinct p hi hj ht' ht (by omega : 0 < p.reim) (by omega : ri < p.reim) hc' hc,
      C91_places_are_distinct p hi hj ht' ht (by omega : 1 < p.reim) (by omega : ri < p.reim) hc' hc]
    by_cases h1 : c' = c <;> by_cases h2 : y' = y <;> by_cases h3 : t' = t <;> by_cases h4 : iconf / p.cs = j <;>
      simp [h1, h2, h3, h4]
    subst h1 h2 h3
    have : ri = 0 ∨ ri = 1 := by omega
    rcases this with rfl | rfl <;> simp [part]
  have h2 : ∀ c' ∈ range p.ncombo, addedAt (p.idx j t ri c y)
      ((List.range p.ntype).flatMap fun itype => (List.range p.T).flatMap fun t =>
        let w := v.getD ((c' * p.ntype + itype) * p.T + t) (0, 0)
        [(p.idx (iconf / p.cs) t 0 c' itype, w.1), (p.idx (iconf / p.cs) t 1 c' itype, if p.new then junk else w.2)]) =
      if c' = c then (if iconf / p.cs = j then part p v c y t ri else 0) else 0 := by
    intro c' hc'
    rw [addedAt_flatMap]
    simp only [addedAt_flatMap]
    rw [sum_congr rfl fun y' hy' => sum_congr rfl fun t' ht' => h c' hc' y' hy' t' ht']
    by_cases h1 : c' = c
    · simp only [if_pos h1]
      rw [sum_eq_single y]
      simp only [if_true]
      rw [sum_ite_eq' (range p.T) t, if_pos (mem_range.2 ht)]
      · intro b _ hb; simp [hb]
      · intro hn; exact absurd (mem_range.2 hy) hn
    · simp only [if_neg h1, sum_const_zero]
  rw [sum_congr rfl h2, sum_ite_eq' (range p.ncombo) c, if_pos (mem_range.2 hc)]

/-- The sums of the clusters. -/
theorem sums_at (p : Pars) (hp : p.new = false) (junk : ℚ) (v : ℕ → ℕ → List (ℚ × ℚ)) (hcs : 0 < p.cs)
    {j t ri c y : ℕ} (hj : j ≤ p.nj) (ht : t < p.T) (hr : ri < 2) (hc : c < p.ncombo) (hy : y < p.ntype) :
    accumulate (p.allAdds junk v) (p.idx j t ri c y) =
      clusters p.cs p.nconfs (fun i => ∑ k ∈ range p.ncopies, part p (v k i) c y t ri) j := by
  rw [accumulate_eq]
  unfold Pars.allAdds
  rw [addedAt_flatMap]
  simp only [addedAt_flatMap]
  have h1 : ∀ a ∈ range p.nj, ∀ i ∈ range p.cs, ∀ k ∈ range p.ncopies,
      addedAt (p.idx j t ri c y) (p.adds junk (a * p.cs + i) (v k (a * p.cs + i))) =
        if a = j then part p (v k (a * p.cs + i)) c y t ri else 0 := by
    intro a ha i hi k hk
    rw [mem_range] at ha hi
    have hd : (a * p.cs + i) / p.cs = a := by
      rw [div_iff hcs]; constructor
      · omega
      · have : (a + 1) * p.cs = a * p.cs + p.cs := by ring
        omega
    rw [adds_at p hp junk _ _ (by rw [hd]; omega) hj ht hr hc hy, hd]
  rw [sum_congr rfl fun a ha => sum_congr rfl fun i hi => sum_congr rfl fun k hk => h1 a ha i hi k hk, clusters_eq]
  by_cases hjn : j < p.nj
  · rw [sum_eq_single j]
    · simp only [if_true]
      unfold Pars.nconfs
      rw [inside_eq hcs hjn, sum_Ico_eq_sum_range]
      have : (j + 1) * p.cs - j * p.cs = p.cs := by
        have : (j + 1) * p.cs = j * p.cs + p.cs := by ring
        omega
      rw [this]
    · intro b _ hb; simp [hb]
    · intro hn; exact absurd (mem_range.2 hjn) hn
  · have hjn : j = p.nj := by omega
    have : (range p.nconfs).filter (fun i => i / p.cs = j) = ∅ := by
      rw [filter_eq_empty_iff]
      intro i hi
      rw [mem_range] at hi
      have : i / p.cs < p.nj := by rw [Nat.div_lt_iff_lt_mul hcs, Nat.mul_comm]; exact hi
      omega
    rw [this, sum_empty]
    apply sum_eq_zero
    intro a ha
    rw [mem_range] at ha
    have : a ≠ j := by omega
    simp [this]

theorem jack2_length (p : Pars) (d : ℕ → ℚ) (o : ℕ) : (p.jack2 d o).length = p.nj + 1 := by simp [Pars.jack2]

theorem out_length (p : Pars) (d : ℕ → ℚ) (y : ℕ) : (p.out d y).length = p.ncombo * p.reim * p.T * (p.nj + 1) := by
  unfold Pars.out
  rw [flatMap_length _ _ fun i => jack2_length ..]

/-- The jackknives from the numbers read. -/
theorem out_at (p : Pars) (hp : p.new = false) (junk : ℚ) (v : ℕ → ℕ → List (ℚ × ℚ)) (hcs : 0 < p.cs)
    (hnj : 2 ≤ p.nj) (hcop : 0 < p.ncopies) {t ri c y : ℕ} (ht : t < p.T) (hr : ri < 2) (hc : c < p.ncombo)
    (hy : y < p.ntype) :
    (∀ j < p.nj, (p.out (accumulate (p.allAdds junk v)) y)[((c * 2 + ri) * p.T + t) * (p.nj + 1) + j]? =
      some (some (mean2 (outside p.nconfs p.cs j) p.ncopies fun k i => part p (v k i) c y t ri))) ∧
    (p.out (accumulate (p.allAdds junk v)) y)[((c * 2 + ri) * p.T + t) * (p.nj + 1) + p.nj]? =
      some (some (mean2 (range p.nconfs) p.ncopies fun k i => part p (v k i) c y t ri)) := by
  have hre : p.reim = 2 := by simp [Pars.reim, hp]
  have hlt : (c * 2 + ri) * p.T + t < p.ncombo * p.reim * p.T := by
    rw [hre]
    have h1 : (c * 2 + ri + 1) * p.T ≤ (p.ncombo * 2) * p.T := Nat.mul_le_mul_right _ (by omega)
    have h2 : (c * 2 + ri + 1) * p.T = (c * 2 + ri) * p.T + p.T := by ring
    omega
  have ho : ∀ j, (p.ncombo * p.reim * p.T * y + ((c * 2 + ri) * p.T + t)) * (p.nj + 1) + j = p.idx j t ri c y := by
    intro j; unfold Pars.idx; rw [hre]; ring
  have hq : (p.ncopies : ℚ) ≠ 0 := by exact_mod_cast hcop.ne'
  have hd : p.nconfs / p.nj = p.cs := Nat.mul_div_cancel _ (by omega)
  have hcl : p.cs < p.nconfs := by unfold Pars.nconfs; nlinarith
  set x := fun i => ∑ k ∈ range p.ncopies, part p (v k i) c y t ri with hx
  have htot : (List.range p.nj).foldl (fun s j => s + accumulate (p.allAdds junk v)
        ((p.ncombo * p.reim * p.T * y + ((c * 2 + ri) * p.T + t)) * (p.nj + 1) + j))
        (accumulate (p.allAdds junk v) ((p.ncombo * p.reim * p.T * y + ((c * 2 + ri) * p.T + t)) * (p.nj + 1) + p.nj))
      = ∑ i ∈ range p.nconfs, x i := by
    have e : (List.range p.nj).foldl (fun s j => s + accumulate (p.allAdds junk v)
        ((p.ncombo * p.reim * p.T * y + ((c * 2 + ri) * p.T + t)) * (p.nj + 1) + j))
        (accumulate (p.allAdds junk v) ((p.ncombo * p.reim * p.T * y + ((c * 2 + ri) * p.T + t)) * (p.nj + 1) + p.nj))
        = total p.nj (fun j => accumulate (p.allAdds junk v)
            ((p.ncombo * p.reim * p.T * y + ((c * 2 + ri) * p.T + t)) * (p.nj + 1) + j)) := rfl
    rw [e, total_eq]
    show _ = ∑ i ∈ range (p.cs * p.nj), x i
    rw [← total_clusters (nj := p.nj) hcs x, total_eq]
    congr 1
    · rw [ho, sums_at p hp junk v hcs (le_refl _) ht hr hc hy]; rfl
    · apply sum_congr rfl
      intro j hj
      rw [ho, sums_at p hp junk v hcs (mem_range.1 hj).le ht hr hc hy]; rfl
  refine ⟨?_, ?_⟩
  · intro j hj
    unfold Pars.out
    rw [flatMap_get _ _ (fun i => jack2_length ..) _ _ _ hlt (by omega)]
    unfold Pars.jack2
    simp only
    rw [List.getElem?_append_left (by simpa using hj), List.getElem?_map, List.getElem?_range hj, Option.map_some,
      htot, hd, ho, sums_at p hp junk v hcs hj.le ht hr hc hy]
    congr 1
    unfold fdiv
    rw [if_neg (by norm_cast; omega), Option.bind_some, if_neg hq]
    unfold mean2 Pars.nconfs
    rw [card_outside hcs hj]
    congr 1
    rw [div_div]
    congr 1
    rw [clusters_eq, outside_eq hcs]
    have := sum_filter_add_sum_filter_not (range (p.cs * p.nj)) (fun i => i / p.cs = j) x
    rw [← this]
    simp only [hx]
    ring
  · unfold Pars.out
    rw [flatMap_get _ _ (fun i => jack2_length ..) _ _ _ hlt (by omega)]
    unfold Pars.jack2
    simp only
    rw [List.getElem?_append_right (by simp)]
    simp only [List.length_map, List.length_range, Nat.sub_self, List.getElem?_cons_zero]
    rw [htot]
    congr 1
    unfold fdiv mean2
    have : 0 < p.nconfs * p.ncopies := Nat.mul_pos (by omega) hcop
    rw [if_neg (by norm_cast; omega), card_range]
    push_cast
    rfl

/-! ### The choice of the files -/

theorem pick_some {α : Type} {files : ℕ → Option α} {teo : ℕ} : ∀ (n targ : ℕ) ld,
    pick files teo n targ = some ld → ld.length = n ∧ (ld.map Prod.fst).Pairwise (· < ·) ∧
      (∀ q ∈ ld, targ ≤ q.1 ∧ files q.1 = some q.2) ∧
      ∀ u ∈ ld.map Prod.fst, ∀ v, targ ≤ v → v < u → files v ≠ none → v ∈ ld.map Prod.fst := by
  intro n
  induction n with
  | zero =>
    intro targ ld h
    injection h with h; subst h; simp
  | succ n ih =>
    intro targ ld h
    rw [pick] at h
    split at h
    · cases h
    · rename_i u f hu
      rw [Option.map_eq_some_iff] at h
      obtain ⟨r, hr, he⟩ := h
      subst he
      obtain ⟨h1, h2, h3⟩ := nextFrom_some _ targ u f hu
      obtain ⟨i1, i2, i3, i4⟩ := ih (u + 1) r hr
      refine ⟨by simp [i1], ?_, ?_, ?_⟩
      · rw [List.map_cons, List.pairwise_cons]
        refine ⟨?_, i2⟩
        intro a ha
        obtain ⟨q, hq, rfl⟩ := List.mem_map.1 ha
        have := (i3 q hq).1
        show u < q.1
        omega
      · intro q hq
        rcases List.mem_cons.1 hq with rfl | hq
        · exact ⟨h1, h2⟩
        · exact ⟨by have := (i3 q hq).1; omega, (i3 q hq).2⟩
      · intro w hw v hv hvw hne
        rw [List.map_cons] at hw ⊢
        by_cases hvu : v < u
        · exact absurd (h3 v hv hvu) hne
        · by_cases hvu2 : v = u
          · rw [hvu2]; exact List.mem_cons_self
          · rcases List.mem_cons.1 hw with hw | hw
            · simp only at hw; omega
            · exact List.mem_cons_of_mem _ (i4 w hw v (by omega) hvw hne)

theorem readAll_some {p : Pars} : ∀ (us : List (ℕ × List Line2)) v, readAll p us = some v →
    ∀ i q, us[i]? = some q → readFile p.T (p.ncombo * p.ntype) q.2 = some (v.getD i []) := by
  intro us
  induction us with
  | nil => intro v h i q hq; simp at hq
  | cons u us ih =>
    intro v h i q hq
    obtain ⟨u, f⟩ := u
    rw [readAll] at h
    split at h
    · cases h
    · rename_i w hw
      rw [Option.map_eq_some_iff] at h
      obtain ⟨r, hr, rfl⟩ := h
      cases i with
      | zero =>
        simp only [List.getElem?_cons_zero, Option.some.injEq] at hq
        subst hq
        simpa using hw
      | succ i => simpa using ih r hr i q (by simpa using hq)

theorem loadCopies_some {p : Pars} {files : ℕ → ℕ → Option (List Line2)} : ∀ n r,
    loadCopies p files n = some r → r.length = n ∧ ∀ c < n, ∃ us,
      pick (files c) p.teo p.nconfs 0 = some us ∧ readAll p us = some (r.getD c []) := by
  intro n
  induction n with
  | zero => intro r h; injection h with h; subst h; simp
  | succ n ih =>
    intro r h
    rw [loadCopies] at h
    split at h
    · cases h
    · rename_i r' hr'
      split at h
      · cases h
      · rename_i us hus
        rw [Option.map_eq_some_iff] at h
        obtain ⟨v, hv, rfl⟩ := h
        obtain ⟨h1, h2⟩ := ih r' hr'
        refine ⟨by simp [h1], ?_⟩
        intro c hc
        by_cases hcn : c < n
        · obtain ⟨us', a, b⟩ := h2 c hcn
          refine ⟨us', a, ?_⟩
          rw [List.getD_eq_getElem?_getD, List.getElem?_append_left (by omega), ← List.getD_eq_getElem?_getD]; exact b
        · have : c = n := by omega
          subst this
          refine ⟨us, hus, ?_⟩
          rw [List.getD_eq_getElem?_getD, List.getElem?_append_right (by omega), h1]
          simpa using hv

/-- C91: when the tool ends, for each copy it used as many configurations as there are in the clusters,
the first ones with a file; one file is written for each type of correlator, which has for each combination,
part, time and jackknife, in this order, the mean over the configurations outside of that cluster and over
the copies of the number written in their files, and the mean over all of them. -/
theorem C91_output_partial (p : Pars) (hp : p.new = false) (hnj : 2 ≤ p.nj) (hteo : p.nj ≤ p.teo)
    (hcop : 0 < p.ncopies) (junk : ℚ) (files : ℕ → ℕ → Option (List Line2)) (outs : List (List Num))
    (h : clusterize2 p junk files = some outs) :
    ∃ (us : ℕ → List ℕ) (x : ℕ → ℕ → ℕ → ℕ → ℕ → ℕ → ℚ),
      (∀ k < p.ncopies, (us k).length = p.teo / p.nj * p.nj ∧ (us k).Pairwise (· < ·) ∧
        (∀ u ∈ us k, files k u ≠ none) ∧ (∀ u ∈ us k, ∀ v < u, files k v ≠ none → v ∈ us k) ∧
        ∀ i u, (us k)[i]? = some u → ∀ f, files k u = some f → ∀ c < p.ncombo, ∀ y < p.ntype, ∀ t < p.T,
          HasAt p f c y t (x c y t 0 k i, x c y t 1 k i)) ∧
      outs.length = p.ntype ∧
      ∀ y < p.ntype, ∃ out, outs[y]? = some out ∧ out.length = p.ncombo * 2 * p.T * (p.nj + 1) ∧
        ∀ c < p.ncombo, ∀ ri < 2, ∀ t < p.T,
          (∀ j < p.nj, out[((c * 2 + ri) * p.T + t) * (p.nj + 1) + j]? =
            some (some (mean2 (outside (p.teo / p.nj * p.nj) (p.teo / p.nj) j) p.ncopies (x c y t ri)))) ∧
          out[((c * 2 + ri) * p.T + t) * (p.nj + 1) + p.nj]? =
            some (some (mean2 (range (p.teo / p.nj * p.nj)) p.ncopies (x c y t ri))) := by
  have hcs : 0 < p.cs := Nat.div_pos hteo (by omega)
  have hre : p.reim = 2 := by simp [Pars.reim, hp]
  unfold clusterize2 at h
  rw [if_neg (by omega), Option.map_eq_some_iff] at h
  obtain ⟨v, hv, rfl⟩ := h
  obtain ⟨h1, h2⟩ := loadCopies_some _ _ hv
  refine ⟨fun k => ((pick (files k) p.teo p.nconfs 0).getD []).map Prod.fst,
    fun c y t ri k i => part p ((v.getD k []).getD i []) c y t ri, ?_, by simp, ?_⟩
  · intro k hk
    obtain ⟨ld, a, b⟩ := h2 k hk
    obtain ⟨p1, p2, p3, p4⟩ := pick_some _ _ _ a
    simp only [a, Option.getD_some]
    refine ⟨by rw [List.length_map, p1]; rfl, p2, ?_, ?_, ?_⟩
    · intro u hu
      obtain ⟨q, hq, rfl⟩ := List.mem_map.1 hu
      rw [(p3 q hq).2]; simp
    · intro u hu w hw
      exact p4 u hu w (Nat.zero_le _) hw
    · intro i u hi f hf c hc y hy t ht
      rw [List.getElem?_map, Option.map_eq_some_iff] at hi
      obtain ⟨q, hq, rfl⟩ := hi
      have hqf := (p3 q (List.mem_of_getElem? hq)).2
      rw [hf] at hqf; injection hqf with hqf; subst hqf
      obtain ⟨r1, r2⟩ := readFile_some _ _ _ (readAll_some _ _ b i q hq)
      unfold HasAt
      have hlt : (c * p.ntype + y) * p.T + t < p.ncombo * p.ntype * p.T := by
        have e1 : (c + 1) * p.ntype ≤ p.ncombo * p.ntype := Nat.mul_le_mul_right _ hc
        have e2 : (c + 1) * p.ntype = c * p.ntype + p.ntype := by ring
        have e3 : (c * p.ntype + y + 1) * p.T ≤ p.ncombo * p.ntype * p.T := Nat.mul_le_mul_right _ (by omega)
        have e4 : (c * p.ntype + y + 1) * p.T = (c * p.ntype + y) * p.T + p.T := by ring
        omega
      rw [r2, List.getElem?_map, List.getElem?_eq_getElem (by rw [r1]; exact hlt), Option.map_some]
      simp only [part, List.getD_eq_getElem?_getD (i := (c * p.ntype + y) * p.T + t),
        List.getElem?_eq_getElem (show (c * p.ntype + y) * p.T + t < ((v.getD k []).getD i []).length by
          rw [r1]; exact hlt), Option.getD_some]
      simp
  · intro y hy
    refine ⟨_, by rw [List.getElem?_map, List.getElem?_range hy, Option.map_some], by rw [out_length, hre], ?_⟩
    intro c hc ri hri t ht
    exact out_at p hp junk _ hcs hnj hcop ht hri hc hy

/-! ### What is missing -/

/-- What is missing in C91: with the new layout, for each file read something is added after the end of what
is allocated. -/
theorem C91_violated_new_layout_overruns (p : Pars) (hp : p.new = true) (hT : 0 < p.T) (hc : 0 < p.ncombo)
    (hy : 0 < p.ntype) (junk : ℚ) (iconf : ℕ) (v : List (ℚ × ℚ)) :
    ∃ a ∈ p.adds junk iconf v, p.size ≤ a.1 ∧ a.2 = junk := by
  have hre : p.reim = 1 := by simp [Pars.reim, hp]
  refine ⟨(p.idx (iconf / p.cs) 0 1 (p.ncombo - 1) (p.ntype - 1), junk), ?_, ?_, rfl⟩
  · unfold Pars.adds
    refine List.mem_flatMap.2 ⟨p.ncombo - 1, by rw [List.mem_range]; omega, List.mem_flatMap.2 ⟨p.ntype - 1, by rw [List.mem_range]; omega,
      List.mem_flatMap.2 ⟨0, by rw [List.mem_range]; omega, ?_⟩⟩⟩
    simp [hp]
  · unfold Pars.size Pars.idx
    rw [hre]
    obtain ⟨c, hc⟩ : ∃ c, p.ncombo = c + 1 := ⟨p.ncombo - 1, by omega⟩
    obtain ⟨y, hy⟩ : ∃ y, p.ntype = y + 1 := ⟨p.ntype - 1, by omega⟩
    rw [hc, hy]
    simp only [Nat.add_sub_cancel]
    nlinarith [Nat.zero_le (iconf / p.cs)]

/-- Two files with two combinations. -/
def twoFiles (k i : ℕ) : Option (List Line2) := if i < 2 then some [.head, .nums 1 0, .empty, .head, .nums 2 0] else none

/-- What is missing in C91: with the new layout the result depends on what the variable that is not read had. -/
theorem C91_violated_new_layout_junk :
    clusterize2 ⟨1, 2, 1, 2, 1, 2, true⟩ 0 twoFiles = some [[some 1, some 1, some 1, some 2, some 2, some 2]] ∧
    clusterize2 ⟨1, 2, 1, 2, 1, 2, true⟩ 7 twoFiles = some [[some 1, some 1, some 1, some 9, some 9, some 9]] := by
  decide +kernel

/-- Two copies of five configurations, with the second of the first copy missing; `a` and `b` are the numbers of
the third one in the two copies. -/
def fiveFiles (a b : ℚ) (k i : ℕ) : Option (List Line2) :=
  if 5 ≤ i ∨ (k = 0 ∧ i = 1) then none
  else some [.nums (if i = 2 then (if k = 0 then a else b) else 0) 0]

/-- What is missing in C91: the copies of a configuration can be in different clusters, so that no
jackknife leaves it out: the third one contributes to the first jackknife with its second copy and to the second
with its first copy. -/
theorem C91_violated_copies_in_different_clusters :
    (clusterize2 ⟨1, 1, 1, 5, 2, 2, false⟩ 0 (fiveFiles 0 0)) = some [[some 0, some 0, some 0, some 0, some 0, some 0]] ∧
    (clusterize2 ⟨1, 1, 1, 5, 2, 2, false⟩ 0 (fiveFiles 8 0)) = some [[some 0, some 2, some 1, some 0, some 0, some 0]] ∧
    (clusterize2 ⟨1, 1, 1, 5, 2, 2, false⟩ 0 (fiveFiles 0 8)) = some [[some 2, some 0, some 1, some 0, some 0, some 0]] := by
  decide +kernel

/-- The hypotheses of C91: two types, two combinations, two copies. -/
example : clusterize2 ⟨1, 2, 2, 2, 2, 2, false⟩ 0
    (fun k i => if i < 2 then some [.head, .nums (i + 1) 0, .nums (10 * k) 0, .head, .spaces, .nums 2 1, .nums 3 1, .empty] else none) =
    some [[some 2, some 1, some (3 / 2), some 0, some 0, some 0, some 2, some 2, some 2, some 1, some 1, some 1],
      [some 5, some 5, some 5, some 0, some 0, some 0, some 3, some 3, some 3, some 1, some 1, some 1]] := by
  decide +kernel
end Nissa.Clust
