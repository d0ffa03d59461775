import Verif.Ib.PropsContr2

/-! # C63: meson contractions, version on the cpu -/

set_option linter.all false

namespace Nissa.Contr
open Nissa.Lx Nissa.Sten Nissa.Su3f Nissa.Gauge Nissa.Gamma Nissa.StD Nissa.Wilson Matrix Complex

noncomputable section

theorem flatMap_sum {A B : Type} (l : List A) (f : A → List B) (F : B → ℝ) : ((l.flatMap f).map F).sum = (l.map fun x => ((f x).map F).sum).sum := by
  induction l with
  | nil => rfl
  | cons a l ih => rw [List.flatMap_cons, List.map_append, List.sum_append, ih, List.map_cons, List.sum_cons]

/-- factor for the real or imaginary part of the first propagator -/
def briBw (r : Nat) : ℂ := if r = 0 then ⟨1, 0⟩ else ⟨0, -1⟩

/-- factor for the real or imaginary part of the second propagator -/
def briFw (r : Nat) : ℂ := if r = 0 then ⟨1, 0⟩ else ⟨0, 1⟩

/-- product of the entries of the matrices -/
def AB (so si : Fin 19) (i k : Fin 4) : ℂ :=
  (baseGamma so).entr i * (baseGamma 5).entr ((baseGamma so).pos i) * ((baseGamma 5).entr k * (baseGamma si).entr k)

/-- key for the components -/
def keyOf (so si : Fin 19) (i k : Fin 4) (rb rf : Nat) : Nat × Nat :=
  (soSpiSiSpiRiId ((baseGamma so).pos i) k rb, soSpiSiSpiRiId i ((baseGamma si).pos k) rf)

theorem contribs_sum (nso_spi ig : Nat) (so si : Fin 19) (F : Nat × Nat → Nat × Nat → ℝ → ℝ) (hF : ∀ key c, F key c 0 = 0) :
    ((contribs nso_spi ig so si).map fun y => F y.1 y.2.1 y.2.2).sum = ((soSpins nso_spi).map fun i => ∑ k : Fin 4, ∑ rb ∈ Finset.range 2, ∑ rf ∈ Finset.range 2, ∑ ri ∈ Finset.range 2,
      F (keyOf so si i k rb rf) (ig, ri) (word (briBw rb * briFw rf * AB so si i k) ri)).sum := by
  unfold contribs
  rw [flatMap_sum]
  congr 1
  refine List.map_congr_left fun i _ => ?_
  rw [flatMap_sum, sum_finRange]
  refine Finset.sum_congr rfl fun k _ => ?_
  rw [flatMap_sum, Stag.list_range_sum]
  refine Finset.sum_congr rfl fun rb _ => ?_
  rw [flatMap_sum, Stag.list_range_sum]
  refine Finset.sum_congr rfl fun rf _ => ?_
  rw [flatMap_sum, Stag.list_range_sum]
  refine Finset.sum_congr rfl fun ri _ => ?_
  show ((if word (briBw rb * briFw rf * AB so si i k) ri ≠ 0 then [(keyOf so si i k rb rf, (ig, ri), word (briBw rb * briFw rf * AB so si i k) ri)] else []).map fun y => F y.1 y.2.1 y.2.2).sum = _
  by_cases h : word (briBw rb * briFw rf * AB so si i k) ri = 0
  · rw [if_neg (fun x => x h), h, hF]; rfl
  · rw [if_pos h]; simp

theorem contribs_keys {nso_spi ig : Nat} (hs : nso_spi = 4 ∨ nso_spi = 1) {so si : Fin 19} (h5 : nso_spi = 1 → so = 5) {y : (Nat × Nat) × (Nat × Nat) × ℝ} (hy : y ∈ contribs nso_spi ig so si) :
    y.1.1 < 8 * nso_spi ∧ y.1.2 < 8 * nso_spi := by
  unfold contribs at hy
  simp only [List.mem_flatMap, List.mem_range] at hy
  obtain ⟨i, hi, k, -, rb, hb, rf, hf, ri, -, h⟩ := hy
  have h : y ∈ (if word (briBw rb * briFw rf * AB so si i k) ri ≠ 0 then [(keyOf so si i k rb rf, (ig, ri), word (briBw rb * briFw rf * AB so si i k) ri)] else []) := h
  by_cases hw : word (briBw rb * briFw rf * AB so si i k) ri ≠ 0
  · rw [if_pos hw, List.mem_singleton] at h
    subst h
    rw [soSpins_mem hs] at hi
    refine ⟨spin_lt ?_ k.isLt hb, spin_lt hi (Fin.isLt _) hf⟩
    rcases hs with e | e
    · rw [e]; exact Fin.isLt _
    · rw [h5 e, dense5_pos]; exact hi
  · rw [if_neg hw] at h; cases h

/-- the sum over the real and imaginary parts is the product of the complex numbers -/
theorem word_parts (a b z : ℂ) {ri : Nat} (h : ri < 2) :
    ∑ rb ∈ Finset.range 2, ∑ rf ∈ Finset.range 2, word a rb * word b rf * word (briBw rb * briFw rf * z) ri = word (star a * b * z) ri := by
  have : ri = 0 ∨ ri = 1 := by omega
  rcases this with rfl | rfl
  · simp [Finset.sum_range_succ, word, briBw, briFw, Complex.mul_re, Complex.mul_im]; ring
  · simp [Finset.sum_range_succ, word, briBw, briFw, Complex.mul_re, Complex.mul_im]; ring

/-- additive form of `word` -/
def wordHom (ri : Nat) : ℂ →+ ℝ := if ri = 0 then Complex.reAddGroupHom else Complex.imAddGroupHom

theorem wordHom_eq (ri : Nat) (z : ℂ) : wordHom ri z = word z ri := by
  unfold wordHom word; split <;> rfl

theorem word_sum {A : Type} (s : Finset A) (f : A → ℂ) (ri : Nat) : word (∑ x ∈ s, f x) ri = ∑ x ∈ s, word (f x) ri := by
  simp only [← wordHom_eq, map_sum]

theorem word_list_sum {A : Type} (l : List A) (f : A → ℂ) (ri : Nat) : word ((l.map f).sum) ri = (l.map fun x => word (f x) ri).sum := by
  rw [← wordHom_eq, map_list_sum, List.map_map]; congr 1; refine List.map_congr_left fun x _ => ?_; exact wordHom_eq _ _

theorem word_real (z : ℂ) (x : ℝ) (ri : Nat) : word (z * (x : ℂ)) ri = word z ri * x := by
  unfold word; split <;> simp [Complex.mul_re, Complex.mul_im]

/-- the value of all the contributions of a contraction at a time -/
theorem contr_time {nso_spi nc sv loc0 : Nat} (hs : nso_spi = 4 ∨ nso_spi = 1) (hv : 0 < sv) (norm : ℝ) (so si : Fin 19) (h5 : nso_spi = 1 → so = 5) (Q1 Q2 : QProp) (rk : Nat) {t : Nat} (ht : t < loc0)
    {r : Nat} (hr : r < 2) :
    ((soSpins nso_spi).map fun i => ∑ k : Fin 4, ∑ rb ∈ Finset.range 2, ∑ rf ∈ Finset.range 2,
      (∑ q ∈ Finset.range (sv * nc * 3), fillBuf nso_spi nc sv loc0 (sv * loc0) Q1 Q2 rk (id nso_spi nc sv loc0 0 t (keyOf so si i k rb rf).1 0 0 0 + q) *
        fillBuf nso_spi nc sv loc0 (sv * loc0) Q1 Q2 rk (id nso_spi nc sv loc0 1 t (keyOf so si i k rb rf).2 0 0 0 + q)) * word (briBw rb * briFw rf * AB so si i k) r * norm).sum =
      ∑ sp ∈ Finset.range sv, word (locContr nso_spi nc norm so si Q1 Q2 rk (sp + sv * t)) r := by
  rw [← word_sum]
  simp only [locContr_sum]
  rw [← Stag.list_range_sum, show ((List.range sv).map fun sp => ((soSpins nso_spi).map fun i => ∑ b : Fin nc, ∑ k : Fin 4,
      (∑ a, star (Q1 (so_sp_col_ind nc ((baseGamma so).pos i) b) rk (sp + sv * t) k a) * Q2 (so_sp_col_ind nc i b) rk (sp + sv * t) ((baseGamma si).pos k) a) *
        ((baseGamma so).entr i * (baseGamma 5).entr ((baseGamma so).pos i) * ((baseGamma 5).entr k * (baseGamma si).entr k) * (norm : ℂ))).sum).sum =
      ((soSpins nso_spi).map fun i => ∑ sp ∈ Finset.range sv, ∑ b : Fin nc, ∑ k : Fin 4,
      (∑ a, star (Q1 (so_sp_col_ind nc ((baseGamma so).pos i) b) rk (sp + sv * t) k a) * Q2 (so_sp_col_ind nc i b) rk (sp + sv * t) ((baseGamma si).pos k) a) *
        ((baseGamma so).entr i * (baseGamma 5).entr ((baseGamma so).pos i) * ((baseGamma 5).entr k * (baseGamma si).entr k) * (norm : ℂ))).sum from ?_]
  · rw [word_list_sum]
    congr 1
    refine List.map_congr_left fun i hi => ?_
    rw [soSpins_mem hs] at hi
    have hj : ((baseGamma so).pos i).val < nso_spi := by
      rcases hs with e | e
      · rw [e]; exact Fin.isLt _
      · rw [h5 e, dense5_pos]; exact hi
    have e1 : ∀ k : Fin 4, ∀ rb ∈ Finset.range 2, ∀ rf ∈ Finset.range 2,
        (∑ q ∈ Finset.range (sv * nc * 3), fillBuf nso_spi nc sv loc0 (sv * loc0) Q1 Q2 rk (id nso_spi nc sv loc0 0 t (keyOf so si i k rb rf).1 0 0 0 + q) *
        fillBuf nso_spi nc sv loc0 (sv * loc0) Q1 Q2 rk (id nso_spi nc sv loc0 1 t (keyOf so si i k rb rf).2 0 0 0 + q)) =
        ∑ b : Fin nc, ∑ a : Fin 3, ∑ sp ∈ Finset.range sv, word (Q1 (so_sp_col_ind nc ((baseGamma so).pos i) b) rk (sp + sv * t) k a) rb * word (Q2 (so_sp_col_ind nc i b) rk (sp + sv * t) ((baseGamma si).pos k) a) rf := by
      intro k rb hb rf hf
      exact block_prod hs hv Q1 Q2 rk ht hj hi k _ (Finset.mem_range.1 hb) (Finset.mem_range.1 hf)
    have e2 : ∀ k : Fin 4, ∑ rb ∈ Finset.range 2, ∑ rf ∈ Finset.range 2,
        (∑ q ∈ Finset.range (sv * nc * 3), fillBuf nso_spi nc sv loc0 (sv * loc0) Q1 Q2 rk (id nso_spi nc sv loc0 0 t (keyOf so si i k rb rf).1 0 0 0 + q) *
        fillBuf nso_spi nc sv loc0 (sv * loc0) Q1 Q2 rk (id nso_spi nc sv loc0 1 t (keyOf so si i k rb rf).2 0 0 0 + q)) * word (briBw rb * briFw rf * AB so si i k) r * norm =
        ∑ b : Fin nc, ∑ a : Fin 3, ∑ sp ∈ Finset.range sv, word (star (Q1 (so_sp_col_ind nc ((baseGamma so).pos i) b) rk (sp + sv * t) k a) * Q2 (so_sp_col_ind nc i b) rk (sp + sv * t) ((baseGamma si).pos k) a *
          AB so si i k) r * norm := by
      intro k
      rw [Finset.sum_congr rfl fun rb hb => Finset.sum_congr rfl fun rf hf => by rw [e1 k rb hb rf hf]]
      simp only [Finset.sum_mul]
      have sw : ∀ {A : Type} (s : Finset A) (f : Nat → Nat → A → ℝ), ∑ rb ∈ Finset.range 2, ∑ rf ∈ Finset.range 2, ∑ x ∈ s, f rb rf x = ∑ x ∈ s, ∑ rb ∈ Finset.range 2, ∑ rf ∈ Finset.range 2, f rb rf x := by
        intro A s f
        simp only [Finset.sum_range_succ, Finset.sum_range_zero, zero_add, ← Finset.sum_add_distrib]
      rw [sw]
      refine Finset.sum_congr rfl fun b _ => ?_
      rw [sw]
      refine Finset.sum_congr rfl fun a _ => ?_
      rw [sw]
      refine Finset.sum_congr rfl fun sp _ => ?_
      rw [← word_parts _ _ _ hr]
      simp only [Finset.sum_mul]
    rw [Finset.sum_congr rfl fun k _ => e2 k]
    simp only [word_sum, Finset.sum_mul]
    rw [Finset.sum_comm' (t' := Finset.univ) (s' := fun _ => Finset.univ) (by simp)]
    rw [Finset.sum_comm (s := Finset.range sv)]
    refine Finset.sum_congr rfl fun b _ => ?_
    rw [Finset.sum_comm (s := Finset.range sv)]
    refine Finset.sum_congr rfl fun k _ => ?_
    rw [Finset.sum_comm]
    refine Finset.sum_congr rfl fun sp _ => Finset.sum_congr rfl fun a _ => ?_
    rw [← word_real]
    unfold AB
    congr 1
    ring
  · generalize soSpins nso_spi = l
    rw [Stag.list_range_sum]
    induction l with
    | nil => simp
    | cons i l ih => simp only [List.map_cons, List.sum_cons, Finset.sum_add_distrib, ih]

theorem zipIdx_single {A : Type} (G : A × Nat → ℝ) (ig : Nat) : ∀ (l : List A) (off : Nat) (_ : ∀ x ∈ l.zipIdx off, x.2 ≠ off + ig → G x = 0) (a : A), l[ig]? = some a →
    ((l.zipIdx off).map G).sum = G (a, off + ig) := by
  induction ig with
  | zero =>
    intro l off h a ha
    cases l with
    | nil => cases ha
    | cons x l =>
      simp only [List.getElem?_cons_zero, Option.some.injEq] at ha
      subst ha
      rw [List.zipIdx_cons, List.map_cons, List.sum_cons]
      have : ((l.zipIdx (off + 1)).map G).sum = 0 := by
        refine List.sum_eq_zero fun y hy => ?_
        obtain ⟨z, hz, rfl⟩ := List.mem_map.1 hy
        refine h z ?_ ?_
        · rw [List.zipIdx_cons]; exact List.mem_cons_of_mem _ hz
        · have := (List.mem_zipIdx hz).1; omega
      rw [this]; simp
  | succ ig ih =>
    intro l off h a ha
    cases l with
    | nil => cases ha
    | cons x l =>
      rw [List.getElem?_cons_succ] at ha
      rw [List.zipIdx_cons, List.map_cons, List.sum_cons, h (x, off) (by rw [List.zipIdx_cons]; exact List.mem_cons_self) (by simp), zero_add,
        ih l (off + 1) (fun y hy hne => h y (by rw [List.zipIdx_cons]; exact List.mem_cons_of_mem _ hy) (by omega)) a ha]
      congr 2; omega

theorem mapM_some {A B : Type} (f : A → Option B) (P : A → B → Prop) : ∀ (l : List A) (_ : ∀ x ∈ l, ∃ y, f x = some y ∧ P x y), ∃ ys, l.mapM f = some ys ∧
    List.Forall₂ P l ys := by
  intro l
  induction l with
  | nil => intro _; exact ⟨[], rfl, List.Forall₂.nil⟩
  | cons x l ih =>
    intro h
    obtain ⟨y, h1, h2⟩ := h x List.mem_cons_self
    obtain ⟨ys, h3, h4⟩ := ih fun z hz => h z (List.mem_cons_of_mem _ hz)
    refine ⟨y :: ys, ?_, List.Forall₂.cons h2 h4⟩
    rw [List.mapM_cons, h1, h3]; rfl

theorem forall2_sum {A B : Type} {P : A → B → Prop} {f : A → ℝ} {g : B → ℝ} (hP : ∀ a b, P a b → g b = f a) {l : List A} {m : List B} (h : List.Forall₂ P l m) : (m.map g).sum = (l.map f).sum := by
  induction h with
  | nil => rfl
  | cons h1 _ ih => rw [List.map_cons, List.sum_cons, List.map_cons, List.sum_cons, ih, hP _ _ h1]

section
variable {g : Geo} (ok : g.Ok)
include ok

/-- the result on a rank -/
theorem cpuGlb_spec (jc : Coords) (nso_spi n ori : Nat) (hs : nso_spi = 4 ∨ nso_spi = 1) (hn : 0 < n) (ho : ori < g.L 0)
    (hb : bufSize nso_spi n (g.loc 1 * g.loc 2 * g.loc 3) (g.loc 0) ≤ 2 ^ 31) (gl : List (Fin 19 × Fin 19)) (h5 : nso_spi = 1 → ∀ x ∈ gl, x.1 = 5) (norm : ℝ) (Q1 Q2 : QProp)
    (rk : Nat) (hrk : rk < g.nranks) :
    ∃ out, cpuGlb g jc nso_spi n ori (gl.zipIdx.flatMap fun x => contribs nso_spi x.2 x.1.1 x.1.2) norm Q1 Q2 rk = some out ∧ ∀ ig so si, gl[ig]? = some (so, si) → ∀ t < g.L 0, ∀ r < 2,
      out (t + g.L 0 * ig) r = ∑ i ∈ Finset.range g.locVol, if (i / (g.loc 1 * g.loc 2 * g.loc 3) + g.L 0 - ori + coordOfLx rk g.R 0 * g.loc 0) % g.L 0 = t then
        word (locContr nso_spi n norm so si Q1 Q2 rk i) r else 0 := by
  have hL := L_pos ok 0
  have hv : 0 < g.loc 1 * g.loc 2 * g.loc 3 := by
    have a := loc_pos ok 1; have b := loc_pos ok 2; have c := loc_pos ok 3
    positivity
  have hvol : g.locVol = g.loc 1 * g.loc 2 * g.loc 3 * g.loc 0 := by
    rw [locVol_eq ok, C01_volOfLx]; ring
  have hp : 0 < nso_spi := by omega
  unfold cpuGlb
  simp only [Stag.firstCoord_eq ok jc 0 hrk, hvol]
  generalize g.loc 1 * g.loc 2 * g.loc 3 = sv at *
  generalize coordOfLx rk g.R 0 * g.loc 0 = first
  generalize hall : gl.zipIdx.flatMap (fun x => contribs nso_spi x.2 x.1.1 x.1.2) = all
  have hkeys : ∀ y ∈ all, y.1.1 < 8 * nso_spi ∧ y.1.2 < 8 * nso_spi := by
    intro y hy
    rw [← hall, List.mem_flatMap] at hy
    obtain ⟨x, hx, hy⟩ := hy
    refine contribs_keys hs (fun h => h5 h x.1 ?_) hy
    have := List.mem_zipIdx' hx
    rw [this.2]; exact List.getElem_mem _
  set v := fillBuf nso_spi n sv (g.loc 0) (sv * g.loc 0) Q1 Q2 rk with hvdef
  obtain ⟨out, h1, h2⟩ := foldlM_add (cpuBody nso_spi n sv (g.loc 0) (g.L 0) ori first norm v) _ (contrContrs all ×ˢ List.range (g.loc 0))
    (fun x hx glb => by
      rw [List.mem_product, List.mem_range] at hx
      obtain ⟨y, hy, hyx⟩ := group_keys hx.1
      have := hkeys y hy
      rw [hyx] at this
      exact cpuBody_spec hp hn hv hb (g.L 0) ori first norm v x this.1 this.2 hx.2 glb) (fun _ _ => 0)
  refine ⟨out, h1, fun ig so si hg t ht r hr => ?_⟩
  rw [h2, zero_add]
  rw [list_sum_product (contrContrs all) (List.range (g.loc 0)) (fun x locT => (x.2.map (cpuTerm (g.L 0) ori first norm
      (fun key t => ∑ q ∈ Finset.range (sv * n * 3), v (id nso_spi n sv (g.loc 0) 0 t key.1 0 0 0 + q) * v (id nso_spi n sv (g.loc 0) 1 t key.2 0 0 0 + q)) (t + g.L 0 * ig) r x.1 locT)).sum)]
  rw [list_sum_comm, Stag.list_range_sum, sum_radix]
  refine Finset.sum_congr rfl fun locT hlocT => ?_
  have hlt := Finset.mem_range.1 hlocT
  rw [group_sum all (fun key => cpuTerm (g.L 0) ori first norm
      (fun key t => ∑ q ∈ Finset.range (sv * n * 3), v (id nso_spi n sv (g.loc 0) 0 t key.1 0 0 0 + q) * v (id nso_spi n sv (g.loc 0) 1 t key.2 0 0 0 + q)) (t + g.L 0 * ig) r key locT)]
  rw [← hall, flatMap_sum]
  have hmodlt := Nat.mod_lt (locT + g.L 0 - ori + first) hL
  have hz : ∀ x ∈ gl.zipIdx, x.2 ≠ 0 + ig → ((contribs nso_spi x.2 x.1.1 x.1.2).map fun y => cpuTerm (g.L 0) ori first norm
      (fun key t => ∑ q ∈ Finset.range (sv * n * 3), v (id nso_spi n sv (g.loc 0) 0 t key.1 0 0 0 + q) * v (id nso_spi n sv (g.loc 0) 1 t key.2 0 0 0 + q)) (t + g.L 0 * ig) r y.1 locT y.2).sum = 0 := by
    intro x _ hne
    rw [contribs_sum nso_spi x.2 x.1.1 x.1.2 (fun key c w => cpuTerm (g.L 0) ori first norm
      (fun key t => ∑ q ∈ Finset.range (sv * n * 3), v (id nso_spi n sv (g.loc 0) 0 t key.1 0 0 0 + q) * v (id nso_spi n sv (g.loc 0) 1 t key.2 0 0 0 + q)) (t + g.L 0 * ig) r key locT (c, w))
      (fun key c => by unfold cpuTerm; simp)]
    refine List.sum_eq_zero fun z hz => ?_
    obtain ⟨i, -, rfl⟩ := List.mem_map.1 hz
    refine Finset.sum_eq_zero fun k _ => Finset.sum_eq_zero fun rb _ => Finset.sum_eq_zero fun rf _ => Finset.sum_eq_zero fun ri _ => ?_
    unfold cpuTerm
    rw [if_neg]
    rintro ⟨h, -⟩
    exact hne (by rw [Nat.zero_add]; exact (radix hmodlt ht h).2)
  rw [zipIdx_single _ ig gl 0 hz (so, si) hg]
  beta_reduce
  rw [contribs_sum nso_spi _ so si (fun key c w => cpuTerm (g.L 0) ori first norm
      (fun key t => ∑ q ∈ Finset.range (sv * n * 3), v (id nso_spi n sv (g.loc 0) 0 t key.1 0 0 0 + q) * v (id nso_spi n sv (g.loc 0) 1 t key.2 0 0 0 + q)) (t + g.L 0 * ig) r key locT (c, w))
      (fun key c => by unfold cpuTerm; simp)]
  have hd : ∀ sp ∈ Finset.range sv, (sp + sv * locT) / sv = locT := by
    intro sp hsp
    rw [Nat.add_mul_div_left _ _ hv, Nat.div_eq_of_lt (Finset.mem_range.1 hsp), Nat.zero_add]
  rw [Finset.sum_congr rfl fun sp hsp => by rw [hd sp hsp]]
  by_cases hT : (locT + g.L 0 - ori + first) % g.L 0 = t
  · simp only [hT, if_true]
    rw [← contr_time hs hv norm so si (fun h => h5 h _ (List.mem_of_getElem? hg)) Q1 Q2 rk hlt hr]
    congr 1
    refine List.map_congr_left fun i _ => ?_
    refine Finset.sum_congr rfl fun k _ => Finset.sum_congr rfl fun rb _ => Finset.sum_congr rfl fun rf _ => ?_
    rw [Finset.sum_eq_single r]
    · unfold cpuTerm
      simp only [hT, Nat.zero_add, and_self, if_true]
      rw [hvdef]
    · intro ri _ hne
      unfold cpuTerm
      rw [if_neg (fun h => hne h.2)]
    · intro h; exact absurd (Finset.mem_range.2 hr) h
  · simp only [hT, if_false, Finset.sum_const_zero]
    refine List.sum_eq_zero fun z hz => ?_
    obtain ⟨i, -, rfl⟩ := List.mem_map.1 hz
    refine Finset.sum_eq_zero fun k _ => Finset.sum_eq_zero fun rb _ => Finset.sum_eq_zero fun rf _ => Finset.sum_eq_zero fun ri _ => ?_
    unfold cpuTerm
    rw [if_neg]
    rintro ⟨h, -⟩
    exact hT (radix hmodlt ht h).1

/-- **C63**.  As long as the indices of the buffer fit the type used for them, the version on the cpu of the contractions gives the same result of the general one. -/
theorem C63_mes2pt_cpu (jc : Coords) (sched : Nat → Nat → List Nat) (hl : ∀ rk, Reduce.Legal (sched rk)) (nso_spi n ori : Nat) (hs : nso_spi = 4 ∨ nso_spi = 1) (hn : 0 < n) (ho : ori < g.L 0)
    (hb : bufSize nso_spi n (g.loc 1 * g.loc 2 * g.loc 3) (g.loc 0) ≤ 2 ^ 31) (gl : List (Fin 19 × Fin 19)) (n1 n2 : ℝ) (Q1 Q2 : QProp) (contr : Nat → ℂ) :
    compute_mes2pt_contr_on_cpu g jc nso_spi n ori gl n1 n2 Q1 Q2 contr = compute_mes2pt_contr_classic g jc sched nso_spi n ori gl n1 n2 Q1 Q2 contr := by
  have hL := L_pos ok 0
  obtain ⟨c1, c2⟩ := C63_mes2pt_classic ok jc sched hl nso_spi n ori hs ho gl n1 n2 Q1 Q2 contr
  unfold compute_mes2pt_contr_on_cpu
  by_cases hx : nso_spi = 1 ∧ ∃ x ∈ gl, x.1 ≠ 5
  · rw [if_pos hx, c1.2 hx]
  rw [if_neg hx]
  have h5 : nso_spi = 1 → ∀ x ∈ gl, x.1 = 5 := by
    intro h x hxx; by_contra h'; exact hx ⟨h, x, hxx, h'⟩
  obtain ⟨res, hres⟩ : ∃ res, compute_mes2pt_contr_classic g jc sched nso_spi n ori gl n1 n2 Q1 Q2 contr = some res := by
    cases h : compute_mes2pt_contr_classic g jc sched nso_spi n ori gl n1 n2 Q1 Q2 contr with
    | none => exact absurd (c1.1 h) hx
    | some r => exact ⟨r, rfl⟩
  rw [hres]
  obtain ⟨r1, r2⟩ := c2 res hres
  have hg := fun (rk : Nat) (hrk : rk ∈ List.range g.nranks) => cpuGlb_spec ok jc nso_spi n ori hs hn ho hb gl h5 (normOf n1 n2) Q1 Q2 rk (List.mem_range.1 hrk)
  obtain ⟨parts, p1, p2⟩ := mapM_some _ _ _ hg
  simp only
  rw [p1]
  show some _ = some _
  congr 1
  funext k
  beta_reduce
  by_cases hk : k < gl.length * g.L 0
  · rw [if_pos hk]
    have hig : k / g.L 0 < gl.length := by rw [Nat.div_lt_iff_lt_mul hL]; exact hk
    have hgl : gl[k / g.L 0]? = some (gl[k / g.L 0].1, gl[k / g.L 0].2) := by rw [List.getElem?_eq_getElem hig]
    have hkk : k = k % g.L 0 + g.L 0 * (k / g.L 0) := (Nat.mod_add_div k (g.L 0)).symm
    have ht := Nat.mod_lt k hL
    generalize k / g.L 0 = ig at *
    generalize k % g.L 0 = t at *
    subst hkk
    rw [r1 ig _ _ hgl t ht]
    congr 1
    -- the sum over the sites
    obtain ⟨X, hX⟩ := coordTable_exists g ok
    have key : ∀ r < 2, (parts.map fun p => p (t + g.L 0 * ig) r).sum = word (((12 / Real.sqrt (n1 * n2) : ℝ) : ℂ) *
        ∑ c ∈ (box g.L).filter (fun c => c 0 = (t + ori) % g.L 0), mesSpec g nso_spi n gl[ig].1 gl[ig].2 Q1 Q2 c) r := by
      intro r hr
      rw [forall2_sum (f := fun rk => ∑ i ∈ Finset.range g.locVol, if (i / (g.loc 1 * g.loc 2 * g.loc 3) + g.L 0 - ori + coordOfLx rk g.R 0 * g.loc 0) % g.L 0 = t then
        word (locContr nso_spi n (normOf n1 n2) gl[ig].1 gl[ig].2 Q1 Q2 rk i) r else 0) (fun rk p h => h ig _ _ hgl t ht r hr) p2, Stag.list_range_sum]
      rw [Finset.mul_sum, word_sum, Finset.sum_filter, ← sum_sites g ok X hX]
      refine Finset.sum_congr rfl fun rk hrk => Finset.sum_congr rfl fun i hi => ?_
      have hrk := Finset.mem_range.1 hrk
      have hi := Finset.mem_range.1 hi
      obtain ⟨x1, x2⟩ := coordTable_of g ok X hX rk i hrk hi
      have hc : X rk i ∈ box g.L := mem_box.2 x1
      obtain ⟨s1, s2⟩ := Stag.site_split ok hc x2
      have hlx := lx_itransp ok hc
      have hdiv : i / (g.loc 1 * g.loc 2 * g.loc 3) = X rk i 0 % g.loc 0 := by
        rw [x2] at hlx
        have := Stag.itransp_div (g := g) 0 (c := fun mu => X rk i mu % g.loc mu) (fun mu => Nat.mod_lt _ (loc_pos ok mu))
        rw [← hlx] at this
        unfold Stag.orth at this
        simpa [Geo.perpDirs, Nat.mul_assoc] using this
      have hco : i / (g.loc 1 * g.loc 2 * g.loc 3) + coordOfLx rk g.R 0 * g.loc 0 = X rk i 0 := by
        have a := s1 0; have b := s2 0
        rw [hdiv]; omega
      have hx0 := x1 0
      have hiff : (i / (g.loc 1 * g.loc 2 * g.loc 3) + g.L 0 - ori + coordOfLx rk g.R 0 * g.loc 0) % g.L 0 = t ↔ X rk i 0 = (t + ori) % g.L 0 := by
        rw [show i / (g.loc 1 * g.loc 2 * g.loc 3) + g.L 0 - ori + coordOfLx rk g.R 0 * g.loc 0 = X rk i 0 + g.L 0 - ori by omega]
        generalize X rk i 0 = x at *
        constructor
        · intro h
          subst h
          rw [Nat.mod_add_mod, show x + g.L 0 - ori + ori = x + g.L 0 by omega, Nat.add_mod_right, Nat.mod_eq_of_lt hx0]
        · intro h
          rw [h]
          by_cases h' : t + ori < g.L 0
          · rw [Nat.mod_eq_of_lt h', show t + ori + g.L 0 - ori = t + g.L 0 by omega, Nat.add_mod_right, Nat.mod_eq_of_lt ht]
          · have e : (t + ori) % g.L 0 = t + ori - g.L 0 := by rw [Nat.mod_eq_sub_mod (by omega), Nat.mod_eq_of_lt (by omega)]
            rw [e, show t + ori - g.L 0 + g.L 0 - ori = t by omega, Nat.mod_eq_of_lt ht]
      have hloc := locContr_spec (g := g) nso_spi n hs (normOf n1 n2) gl[ig].1 gl[ig].2 (fun h => h5 h _ (List.getElem_mem hig)) Q1 Q2 (X rk i)
      rw [x2] at hloc
      simp only [hiff]
      rw [hloc]
      unfold normOf
      split <;> rfl
    rw [key 0 (by omega), key 1 (by omega)]
    generalize ((12 / Real.sqrt (n1 * n2) : ℝ) : ℂ) * _ = z
    unfold word
    rw [if_pos rfl, if_neg (by omega)]
  · rw [if_neg hk, r2 k (by omega)]

end

/-- size of the buffer: 24 real numbers per component, for one more time slice than the local ones -/
theorem bufSize_val {nso_spi n sv : Nat} (hs : 0 < nso_spi) (hn : 0 < n) (hv : 0 < sv) (loc0 : Nat) : bufSize nso_spi n sv loc0 = 24 * nso_spi * n * sv * (2 * loc0 + 1) := by
  rw [bufSize_eq hs hn hv]; ring

/-- the condition is met by a lattice 16x32^3 on a single rank, with a source diluted in spin and colour -/
example : bufSize 4 3 (32 * 32 * 32) 16 ≤ 2 ^ 31 := by rw [bufSize_val (by omega) (by omega) (by omega)]; norm_num

/-- and not by a lattice 128x32^3 -/
example : ¬ bufSize 4 3 (32 * 32 * 32) 128 ≤ 2 ^ 31 := by rw [bufSize_val (by omega) (by omega) (by omega)]; norm_num

theorem foldlM_none {A B : Type} (F : B → A → Option B) (x : A) (hx : ∀ b, F b x = none) : ∀ (l : List A) (_ : x ∈ l) (b : B), l.foldlM F b = none := by
  intro l
  induction l with
  | nil => intro h; cases h
  | cons a l ih =>
    intro h b
    rw [List.foldlM_cons]
    rcases List.mem_cons.1 h with e | e
    · rw [← e, hx]; rfl
    · cases hF : F b a with
      | none => rfl
      | some b' => exact ih e b'

theorem mapM_none {A B : Type} (f : A → Option B) (x : A) (hx : f x = none) : ∀ (l : List A) (_ : x ∈ l), l.mapM f = none := by
  intro l
  induction l with
  | nil => intro h; cases h
  | cons a l ih =>
    intro h
    rw [List.mapM_cons]
    rcases List.mem_cons.1 h with e | e
    · rw [← e, hx]; rfl
    · rw [ih e]
      cases f a <;> rfl

theorem toInt32_neg {n : Nat} (h : 2 ^ 31 ≤ n) (h' : n < 2 ^ 32) : toInt32 n < 0 := by
  unfold toInt32; omega

/-- **C63**, limit.  When the local lattice is larger the version on the cpu of the contractions reads the buffer at negative indices: the indices of the buffer are
kept in 32 bits. -/
theorem C63_violated_cpu_overflow {g : Geo} (ok : g.Ok) (jc : Coords) (nso_spi n ori : Nat) (hs : nso_spi = 4 ∨ nso_spi = 1) (hn : 0 < n)
    (h1 : 2 ^ 31 ≤ 24 * nso_spi * n * (g.loc 1 * g.loc 2 * g.loc 3) * (2 * g.loc 0 - 1)) (h2 : 24 * nso_spi * n * (g.loc 1 * g.loc 2 * g.loc 3) * (2 * g.loc 0 + 1) ≤ 2 ^ 32)
    (gl : List (Fin 19 × Fin 19)) (h5 : (5, 5) ∈ gl) (n1 n2 : ℝ) (Q1 Q2 : QProp) (contr : Nat → ℂ) :
    compute_mes2pt_contr_on_cpu g jc nso_spi n ori gl n1 n2 Q1 Q2 contr = none := by
  have hl0 := loc_pos ok 0
  have hv : 0 < g.loc 1 * g.loc 2 * g.loc 3 := by
    have a := loc_pos ok 1; have b := loc_pos ok 2; have c := loc_pos ok 3
    positivity
  have hp : 0 < nso_spi := by omega
  have hr : 0 < g.nranks := (C02_rank_and_loclx g ok (fun _ => 0) (fun mu => L_pos ok mu)).1.pos
  unfold compute_mes2pt_contr_on_cpu
  split
  · rfl
  simp only
  rw [mapM_none _ 0 ?_ (List.range g.nranks) (List.mem_range.2 hr)]
  · rfl
  -- the key of the first component
  obtain ⟨ig, hig, hgl⟩ := List.getElem_of_mem h5
  have hall : (keyOf 5 5 0 0 0 0, (ig, 0), (1 : ℝ)) ∈ gl.zipIdx.flatMap fun x => contribs nso_spi x.2 x.1.1 x.1.2 := by
    rw [List.mem_flatMap]
    refine ⟨((5, 5), ig), ?_, ?_⟩
    · rw [List.mem_zipIdx_iff_getElem?, List.getElem?_eq_getElem hig, hgl]
    · show _ ∈ contribs nso_spi ig 5 5
      unfold contribs
      simp only [List.mem_flatMap, List.mem_range]
      refine ⟨0, (soSpins_mem hs).2 hp, 0, List.mem_finRange _, 0, by omega, 0, by omega, 0, by omega, ?_⟩
      show _ ∈ (if word (briBw 0 * briFw 0 * AB 5 5 0 0) 0 ≠ 0 then [(keyOf 5 5 0 0 0 0, (ig, 0), word (briBw 0 * briFw 0 * AB 5 5 0 0) 0)] else [])
      have e : word (briBw 0 * briFw 0 * AB 5 5 0 0) 0 = 1 := by
        unfold AB
        rw [dense5_pos, entr5_0]
        unfold briBw briFw word
        simp
      rw [e, if_pos one_ne_zero]
      exact List.mem_singleton.2 rfl
  have hkey : keyOf 5 5 0 0 0 0 = (0, 0) := by
    unfold keyOf soSpiSiSpiRiId
    rw [dense5_pos]
    rfl
  rw [hkey] at hall
  generalize gl.zipIdx.flatMap (fun x => contribs nso_spi x.2 x.1.1 x.1.2) = all at hall
  have hmem : ∃ cs, ((0, 0), cs) ∈ contrContrs all := by
    unfold contrContrs
    refine ⟨_, List.mem_map.2 ⟨(0, 0), ?_, rfl⟩⟩
    rw [List.mem_dedup]
    exact List.mem_map.2 ⟨_, hall, rfl⟩
  obtain ⟨cs, hcs⟩ := hmem
  unfold cpuGlb
  refine foldlM_none _ (((0, 0), cs), g.loc 0 - 1) (fun glb => ?_) _ (List.mem_product.2 ⟨hcs, List.mem_range.2 (by omega)⟩) _
  unfold cpuBody
  simp only
  have hid : id nso_spi n (g.loc 1 * g.loc 2 * g.loc 3) (g.loc 0) 1 (g.loc 0 - 1) 0 0 0 0 = 24 * nso_spi * n * (g.loc 1 * g.loc 2 * g.loc 3) * (2 * g.loc 0 - 1) := by
    unfold id
    rw [nSo_eq hp]
    generalize hq : g.loc 0 - 1 + g.loc 0 * 1 = q
    rw [show 2 * g.loc 0 - 1 = q by omega]
    ring
  have hlt : 24 * nso_spi * n * (g.loc 1 * g.loc 2 * g.loc 3) * (2 * g.loc 0 - 1) < 2 ^ 32 := by
    refine lt_of_lt_of_le ?_ h2
    have : 0 < 24 * nso_spi * n * (g.loc 1 * g.loc 2 * g.loc 3) := by positivity
    exact Nat.mul_lt_mul_of_pos_left (by omega) this
  have hneg := toInt32_neg h1 hlt
  rw [hid, if_neg]
  rintro ⟨-, -, h, -⟩
  exact absurd h (not_le.2 hneg)

/-- a lattice 128x32^3 on a single rank, with a source diluted in spin and colour, meets the conditions -/
example : 2 ^ 31 ≤ 24 * 4 * 3 * (32 * 32 * 32) * (2 * 128 - 1) ∧ 24 * 4 * 3 * (32 * 32 * 32) * (2 * 128 + 1) ≤ 2 ^ 32 := by norm_num

end

end Nissa.Contr
