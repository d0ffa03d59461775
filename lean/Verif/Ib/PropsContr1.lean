import Verif.Ib.Contr
import Verif.Measures.PropsStagCorr

/-! # C63: meson contractions -/

set_option linter.all false

namespace Nissa.Contr
open Nissa.Lx Nissa.Sten Nissa.Su3f Nissa.Gauge Nissa.Gamma Nissa.StD Nissa.Wilson Matrix Complex
open scoped Kronecker

noncomputable section

/-! ### Specification -/

/-- the propagator at a site as a matrix from the spin and colour of the source to those of the sink -/
def smat (g : Geo) (n : Nat) (Q : QProp) (c : Coords) : Matrix (Fin 4 × Fin 3) (Fin 4 × Fin n) ℂ :=
  fun x y => glob g (Q (so_sp_col_ind n y.1 y.2)) c x.1 x.2

/-- the same when the source is not diluted in spin -/
def smat1 (g : Geo) (n : Nat) (Q : QProp) (c : Coords) : Matrix (Fin 4 × Fin 3) (Fin n) ℂ :=
  fun x y => glob g (Q (so_sp_col_ind n 0 y)) c x.1 x.2

/-- a matrix acting on the spin only -/
def onSpin (n : Nat) (M : Matrix (Fin 4) (Fin 4) ℂ) : Matrix (Fin 4 × Fin n) (Fin 4 × Fin n) ℂ := M ⊗ₖ (1 : Matrix (Fin n) (Fin n) ℂ)

/-- `Tr[ GSO g5 S1^+ g5 GSI S2 ]` at a site -/
def mesTrace (g : Geo) (n : Nat) (so si : Fin 19) (Q1 Q2 : QProp) (c : Coords) : ℂ :=
  trace (onSpin n (Γ so * Γ 5) * (smat g n Q1 c)ᴴ * onSpin 3 (Γ 5 * Γ si) * smat g n Q2 c)

/-- `Tr[ S1^+ g5 GSI S2 ]` at a site, for a source not diluted in spin -/
def mesTrace1 (g : Geo) (n : Nat) (si : Fin 19) (Q1 Q2 : QProp) (c : Coords) : ℂ :=
  trace ((smat1 g n Q1 c)ᴴ * onSpin 3 (Γ 5 * Γ si) * smat1 g n Q2 c)

/-! ### Loops -/

theorem foldl_add' {A M : Type} [AddCommMonoid M] (f : A → M) : ∀ (l : List A) (a : M), l.foldl (fun acc x => acc + f x) a = a + (l.map f).sum := by
  intro l
  induction l with
  | nil => intro a; simp
  | cons x l ih => intro a; rw [List.foldl_cons, ih, List.map_cons, List.sum_cons, add_assoc]

theorem sum_finRange {M : Type} [AddCommMonoid M] (n : Nat) (f : Fin n → M) : ((List.finRange n).map f).sum = ∑ i, f i := (Fin.sum_univ_def f).symm

theorem soSpins_four : soSpins 4 = List.finRange 4 := by decide
theorem soSpins_one : soSpins 1 = [0] := by decide

theorem sum_range_fin {M : Type} [AddCommMonoid M] (n : Nat) (f : Nat → M) : ((List.range n).map f).sum = ∑ i : Fin n, f i := by
  rw [Stag.list_range_sum, Finset.sum_range]

/-- the terms of the contraction at a site -/
theorem locContr_sum (nso_spi nso_col : Nat) (norm : ℝ) (so si : Fin 19) (Q1 Q2 : QProp) (rk ivol : Nat) :
    locContr nso_spi nso_col norm so si Q1 Q2 rk ivol = ((soSpins nso_spi).map fun i => ∑ b : Fin nso_col, ∑ k : Fin 4,
      (∑ a, star (Q1 (so_sp_col_ind nso_col ((baseGamma so).pos i) b) rk ivol k a) * Q2 (so_sp_col_ind nso_col i b) rk ivol ((baseGamma si).pos k) a) *
        ((baseGamma so).entr i * (baseGamma 5).entr ((baseGamma so).pos i) * ((baseGamma 5).entr k * (baseGamma si).entr k) * (norm : ℂ))).sum := by
  unfold locContr
  simp only [foldl_add', sum_finRange, sum_range_fin, zero_add]

theorem dense_sum (m : DiracMatr ℂ) (i : Fin 4) (f : Fin 4 → ℂ) : ∑ j, dense m i j * f j = m.entr i * f (m.pos i) := by
  unfold dense
  simp [Finset.sum_ite_eq']

theorem dense5_pos (j : Fin 4) : (baseGamma 5).pos j = j := by
  unfold baseGamma
  rw [dif_pos (by decide)]
  show (table 5).pos j = j
  revert j; decide

theorem Γ_dense (k : Fin 19) : Γ k = dense (baseGamma k) := rfl

theorem prod5_left (si : Fin 19) (k : Fin 4) (f : Fin 4 → ℂ) : ∑ l, (Γ 5 * Γ si) k l * f l = (baseGamma 5).entr k * (baseGamma si).entr k * f ((baseGamma si).pos k) := by
  rw [Γ_dense, Γ_dense, ← (C30_sparse_ops (baseGamma 5) (baseGamma si) 0 0).1, dense_sum]
  unfold diracProd
  simp only [dense5_pos]

theorem prod5_right (so : Fin 19) (i : Fin 4) (f : Fin 4 → ℂ) :
    ∑ j, (Γ so * Γ 5) i j * f j = (baseGamma so).entr i * (baseGamma 5).entr ((baseGamma so).pos i) * f ((baseGamma so).pos i) := by
  rw [Γ_dense, Γ_dense, ← (C30_sparse_ops (baseGamma so) (baseGamma 5) 0 0).1, dense_sum]
  unfold diracProd
  simp only [dense5_pos]

theorem onSpin_mul {n : Nat} {m : Type} (M : Matrix (Fin 4) (Fin 4) ℂ) (S : Matrix (Fin 4 × Fin n) m ℂ) (x : Fin 4 × Fin n) (y : m) :
    (onSpin n M * S) x y = ∑ j, M x.1 j * S (j, x.2) y := by
  unfold onSpin
  rw [Matrix.mul_apply, Fintype.sum_prod_type]
  refine Finset.sum_congr rfl fun j _ => ?_
  rw [Finset.sum_eq_single x.2]
  · simp [Matrix.kroneckerMap_apply]
  · intro b _ hb
    simp [Matrix.kroneckerMap_apply, Matrix.one_apply, Ne.symm hb]
  · intro h; exact absurd (Finset.mem_univ _) h

/-- the trace written with the indices -/
theorem mesTrace_sum (g : Geo) (n : Nat) (so si : Fin 19) (Q1 Q2 : QProp) (c : Coords) :
    mesTrace g n so si Q1 Q2 c = ∑ i : Fin 4, ∑ b : Fin n, ∑ k : Fin 4, (∑ a, star (glob g (Q1 (so_sp_col_ind n ((baseGamma so).pos i) b)) c k a) *
      glob g (Q2 (so_sp_col_ind n i b)) c ((baseGamma si).pos k) a) *
        ((baseGamma so).entr i * (baseGamma 5).entr ((baseGamma so).pos i) * ((baseGamma 5).entr k * (baseGamma si).entr k)) := by
  unfold mesTrace
  rw [Matrix.mul_assoc (onSpin n _ * _), Matrix.mul_assoc]
  unfold Matrix.trace
  rw [Fintype.sum_prod_type]
  refine Finset.sum_congr rfl fun i _ => Finset.sum_congr rfl fun b _ => ?_
  rw [Matrix.diag_apply, onSpin_mul, prod5_right]
  rw [Matrix.mul_apply, Fintype.sum_prod_type, Finset.mul_sum]
  refine Finset.sum_congr rfl fun k _ => ?_
  rw [Finset.mul_sum, Finset.sum_mul]
  refine Finset.sum_congr rfl fun a _ => ?_
  rw [onSpin_mul, prod5_left, Matrix.conjTranspose_apply]
  unfold smat
  simp only
  ring

theorem entr5_0 : (baseGamma 5).entr 0 = 1 := by
  unfold baseGamma
  rw [dif_pos (by decide)]
  show GaussianInt.toComplex ((table 5).entr 0) = 1
  simp [table, initDirac, GaussianInt.toComplex, Complex.ext_iff]

theorem mesTrace1_sum (g : Geo) (n : Nat) (si : Fin 19) (Q1 Q2 : QProp) (c : Coords) :
    mesTrace1 g n si Q1 Q2 c = ∑ b : Fin n, ∑ k : Fin 4, (∑ a, star (glob g (Q1 (so_sp_col_ind n 0 b)) c k a) *
      glob g (Q2 (so_sp_col_ind n 0 b)) c ((baseGamma si).pos k) a) * ((baseGamma 5).entr k * (baseGamma si).entr k) := by
  unfold mesTrace1
  rw [Matrix.mul_assoc]
  unfold Matrix.trace
  refine Finset.sum_congr rfl fun b _ => ?_
  rw [Matrix.diag_apply, Matrix.mul_apply, Fintype.sum_prod_type]
  refine Finset.sum_congr rfl fun k _ => ?_
  rw [Finset.sum_mul]
  refine Finset.sum_congr rfl fun a _ => ?_
  rw [onSpin_mul, prod5_left, Matrix.conjTranspose_apply]
  unfold smat1
  simp only
  ring

/-- the trace for the two kinds of sources -/
def mesSpec (g : Geo) (nso_spi n : Nat) (so si : Fin 19) (Q1 Q2 : QProp) (c : Coords) : ℂ :=
  if nso_spi = 1 then mesTrace1 g n si Q1 Q2 c else mesTrace g n so si Q1 Q2 c

section
variable {g : Geo} (ok : g.Ok)
include ok

omit ok in
theorem locContr_spec (nso_spi n : Nat) (hs : nso_spi = 4 ∨ nso_spi = 1) (norm : ℝ) (so si : Fin 19) (h5 : nso_spi = 1 → so = 5) (Q1 Q2 : QProp) (c : Coords) :
    locContr nso_spi n norm so si Q1 Q2 (getLoclxAndRankOfCoords g c).1 (getLoclxAndRankOfCoords g c).2 = norm * mesSpec g nso_spi n so si Q1 Q2 c := by
  rw [locContr_sum]
  unfold mesSpec
  rcases hs with h | h
  · subst h
    rw [soSpins_four, sum_finRange, if_neg (by decide), mesTrace_sum, Finset.mul_sum]
    refine Finset.sum_congr rfl fun i _ => ?_
    rw [Finset.mul_sum]
    refine Finset.sum_congr rfl fun b _ => ?_
    rw [Finset.mul_sum]
    refine Finset.sum_congr rfl fun k _ => ?_
    unfold glob
    ring
  · subst h
    obtain rfl := h5 rfl
    rw [soSpins_one, if_pos rfl, mesTrace1_sum, List.map_singleton, List.sum_singleton, Finset.mul_sum]
    refine Finset.sum_congr rfl fun b _ => ?_
    rw [Finset.mul_sum]
    refine Finset.sum_congr rfl fun k _ => ?_
    rw [dense5_pos, entr5_0]
    unfold glob
    show _ * (_ * _ * _ * _) = _
    simp only [Fin.val_zero, one_mul]
    ring

/-- site index and order of the slices -/
theorem lx_itransp {c : Coords} (hc : c ∈ box g.L) : (getLoclxAndRankOfCoords g c).2 = Stag.itransp g 0 (fun mu => c mu % g.loc mu) := by
  have he : (fun mu => c mu - c mu / g.loc mu * g.loc mu) = fun mu => c mu % g.loc mu := by
    funext mu
    have := Nat.div_add_mod' (c mu) (g.loc mu)
    omega
  unfold getLoclxAndRankOfCoords
  simp only [he]
  rw [C01_order]
  unfold Stag.itransp
  simp [Geo.perpDirs]

/-- the new content of the correlators -/
theorem addContr_spec (L ori ig : Nat) (hL : 0 < L) (ho : ori < L) (temp contr : Nat → ℂ) :
    (∀ t < L, addContr L ori ig temp contr (t + L * ig) = contr (t + L * ig) + temp ((t + ori) % L)) ∧ ∀ k, (k < L * ig ∨ L * (ig + 1) ≤ k) → addContr L ori ig temp contr k = contr k := by
  have hkey : ∀ t, t < L → ∀ t', t' < L → (t + L - ori) % L + L * ig = (t' + L - ori) % L + L * ig → t = t' := by
    intro t ht t' ht' h
    have h' : (t + L - ori) % L = (t' + L - ori) % L := by omega
    have e : ∀ t, t < L → (t + L - ori) % L = if ori ≤ t then t - ori else t + L - ori := by
      intro t ht
      split
      · rw [show t + L - ori = (t - ori) + L by omega, Nat.add_mod_right, Nat.mod_eq_of_lt (by omega)]
      · rw [Nat.mod_eq_of_lt (by omega)]
    rw [e t ht, e t' ht'] at h'
    split at h' <;> split at h' <;> omega
  constructor
  · intro t ht
    have hk : ((t + ori) % L + L - ori) % L + L * ig = t + L * ig := by
      have := Nat.mod_lt (t + ori) hL
      congr 1
      by_cases h : t + ori < L
      · rw [Nat.mod_eq_of_lt h, show t + ori + L - ori = t + L by omega, Nat.add_mod_right, Nat.mod_eq_of_lt ht]
      · have e : (t + ori) % L = t + ori - L := by rw [Nat.mod_eq_sub_mod (by omega), Nat.mod_eq_of_lt (by omega)]
        rw [e, show t + ori - L + L - ori = t by omega, Nat.mod_eq_of_lt ht]
    have := Stag.fold_upd (fun t => (t + L - ori) % L + L * ig) (fun (v : ℂ) t => v + temp t) (List.range L) List.nodup_range
      (fun a ha b hb h => hkey a (List.mem_range.1 ha) b (List.mem_range.1 hb) h) contr ((t + ori) % L) (List.mem_range.2 (Nat.mod_lt _ hL))
    rw [hk] at this
    exact this
  · intro k hk
    have : ∀ l : List Nat, ∀ b : Nat → ℂ, (l.foldl (fun contr (t : Nat) => Function.update contr ((t + L - ori) % L + L * ig) (contr ((t + L - ori) % L + L * ig) + temp t)) b) k = b k := by
      intro l
      induction l with
      | nil => intro b; rfl
      | cons a l ih =>
        intro b
        rw [List.foldl_cons, ih, Function.update_of_ne]
        have := Nat.mod_lt (a + L - ori) hL
        rw [Nat.mul_add, Nat.mul_one] at hk
        omega
    exact this _ _

/-- **C63**.  The meson contractions (general version): for all the pairs of gamma matrices and all times after the source, the trace of the propagators summed on
the slice at that distance from the source, with the norm, is added to the previous content, and nothing else is changed; the program stops if a matrix different from
`g5` is asked at a source not diluted in spin. -/
theorem C63_mes2pt_classic (jc : Coords) (sched : Nat → Nat → List Nat) (hl : ∀ rk, Reduce.Legal (sched rk)) (nso_spi n ori : Nat) (hs : nso_spi = 4 ∨ nso_spi = 1) (ho : ori < g.L 0)
    (gl : List (Fin 19 × Fin 19)) (n1 n2 : ℝ) (Q1 Q2 : QProp) (contr : Nat → ℂ) :
    (compute_mes2pt_contr_classic g jc sched nso_spi n ori gl n1 n2 Q1 Q2 contr = none ↔ nso_spi = 1 ∧ ∃ x ∈ gl, x.1 ≠ 5) ∧
    ∀ res, compute_mes2pt_contr_classic g jc sched nso_spi n ori gl n1 n2 Q1 Q2 contr = some res →
      (∀ ig so si, gl[ig]? = some (so, si) → ∀ t < g.L 0, res (t + g.L 0 * ig) = contr (t + g.L 0 * ig) +
        ((12 / Real.sqrt (n1 * n2) : ℝ) : ℂ) * ∑ c ∈ (box g.L).filter (fun c => c 0 = (t + ori) % g.L 0), mesSpec g nso_spi n so si Q1 Q2 c) ∧
      ∀ k, gl.length * g.L 0 ≤ k → res k = contr k := by
  have hL := L_pos ok 0
  -- one step
  have step : ∀ so si : Fin 19, (nso_spi = 1 → so = 5) → ∃ temp, Stag.glb_reduce g.nranks sched (locContr nso_spi n (normOf n1 n2) so si Q1 Q2) g.locVol (g.L 0) (g.loc 0) (Stag.firstCoord g jc 0) = some temp ∧
      ∀ k < g.L 0, temp k = ((12 / Real.sqrt (n1 * n2) : ℝ) : ℂ) * ∑ c ∈ (box g.L).filter (fun c => c 0 = k), mesSpec g nso_spi n so si Q1 Q2 c := by
    intro so si h5
    obtain ⟨res, h1, h2⟩ := Stag.C62_slices ok sched hl jc 0 (locContr nso_spi n (normOf n1 n2) so si Q1 Q2) (fun c => ((normOf n1 n2 : ℝ) : ℂ) * mesSpec g nso_spi n so si Q1 Q2 c)
      (fun c hc => by rw [← lx_itransp ok hc]; exact locContr_spec nso_spi n hs _ so si h5 Q1 Q2 c)
    refine ⟨res, h1, fun k hk => ?_⟩
    rw [h2 k hk, Finset.mul_sum]
    rfl
  let F : (Nat → ℂ) → (Fin 19 × Fin 19) × Nat → Option (Nat → ℂ) := fun contr x => if nso_spi = 1 ∧ x.1.1 ≠ 5 then none else do
        let temp ← Stag.glb_reduce g.nranks sched (locContr nso_spi n (normOf n1 n2) x.1.1 x.1.2 Q1 Q2) g.locVol (g.L 0) (g.loc 0) (Stag.firstCoord g jc 0)
        pure (addContr (g.L 0) ori x.2 temp contr)
  have main : ∀ (l : List (Fin 19 × Fin 19)) (off : Nat) (contr : Nat → ℂ),
      let r := (l.zipIdx off).foldlM F contr
      (r = none ↔ nso_spi = 1 ∧ ∃ x ∈ l, x.1 ≠ 5) ∧ ∀ res, r = some res →
        (∀ ig so si, l[ig]? = some (so, si) → ∀ t < g.L 0, res (t + g.L 0 * (off + ig)) = contr (t + g.L 0 * (off + ig)) +
          ((12 / Real.sqrt (n1 * n2) : ℝ) : ℂ) * ∑ c ∈ (box g.L).filter (fun c => c 0 = (t + ori) % g.L 0), mesSpec g nso_spi n so si Q1 Q2 c) ∧
        ∀ k, (k < g.L 0 * off ∨ g.L 0 * (off + l.length) ≤ k) → res k = contr k := by
    intro l
    induction l with
    | nil =>
      intro off contr
      refine ⟨?_, ?_⟩
      · simp
      · rintro res h
        cases h
        exact ⟨fun ig so si h => by simp at h, fun k _ => rfl⟩
    | cons x l ih =>
      intro off contr r
      by_cases hx : nso_spi = 1 ∧ x.1 ≠ 5
      · have hr : r = none := by
          show ((x :: l).zipIdx off).foldlM F contr = none
          rw [List.zipIdx_cons, List.foldlM_cons]
          show Option.bind (if nso_spi = 1 ∧ x.1 ≠ 5 then none else _) _ = none
          rw [if_pos hx]
          rfl
        rw [hr]
        exact ⟨⟨fun _ => ⟨hx.1, x, List.mem_cons_self, hx.2⟩, fun _ => rfl⟩, fun res h => by cases h⟩
      · obtain ⟨temp, t1, t2⟩ := step x.1 x.2 (fun h => by by_contra h'; exact hx ⟨h, h'⟩)
        obtain ⟨i1, i2⟩ := ih (off + 1) (addContr (g.L 0) ori off temp contr)
        have hr : r = (l.zipIdx (off + 1)).foldlM F (addContr (g.L 0) ori off temp contr) := by
          show ((x :: l).zipIdx off).foldlM F contr = _
          rw [List.zipIdx_cons, List.foldlM_cons]
          show Option.bind (if nso_spi = 1 ∧ x.1 ≠ 5 then none else _) _ = _
          rw [if_neg hx]
          show Option.bind (Option.bind (Stag.glb_reduce _ _ _ _ _ _ _) _) _ = _
          rw [t1]
          rfl
        rw [hr]
        refine ⟨i1.trans ?_, fun res h => ?_⟩
        · constructor
          · rintro ⟨a, y, hy, hy'⟩; exact ⟨a, y, List.mem_cons_of_mem _ hy, hy'⟩
          · rintro ⟨a, y, hy, hy'⟩
            rcases List.mem_cons.1 hy with e | e
            · subst e; exact absurd ⟨a, hy'⟩ hx
            · exact ⟨a, y, e, hy'⟩
        · obtain ⟨j1, j2⟩ := i2 res h
          obtain ⟨a1, a2⟩ := addContr_spec ok (g.L 0) ori off hL ho temp contr
          constructor
          · intro ig so si hg t ht
            cases ig with
            | zero =>
              simp only [List.getElem?_cons_zero, Option.some.injEq] at hg
              subst hg
              rw [Nat.add_zero, j2 _ (Or.inl (by rw [Nat.mul_add]; omega)), a1 t ht, t2 _ (Nat.mod_lt _ hL)]
            | succ ig =>
              rw [List.getElem?_cons_succ] at hg
              have := j1 ig so si hg t ht
              rw [show off + 1 + ig = off + (ig + 1) by omega] at this
              rw [this, a2 _ (Or.inr ?_)]
              rw [show off + (ig + 1) = (off + 1) + ig by omega, Nat.mul_add (g.L 0) (off + 1) ig]
              omega
          · intro k hk
            rw [List.length_cons] at hk
            rw [j2 k ?_, a2 k ?_]
            · rcases hk with hk | hk
              · exact Or.inl hk
              · refine Or.inr (le_trans (Nat.mul_le_mul_left _ (by omega)) hk)
            · rcases hk with hk | hk
              · left; rw [Nat.mul_add]; omega
              · right; rwa [show off + 1 + l.length = off + (l.length + 1) by omega]
  obtain ⟨m1, m2⟩ := main gl 0 contr
  refine ⟨m1, fun res h => ?_⟩
  obtain ⟨j1, j2⟩ := m2 res h
  refine ⟨fun ig so si hg t ht => ?_, fun k hk => j2 k (Or.inr (by rwa [Nat.zero_add, Nat.mul_comm]))⟩
  have := j1 ig so si hg t ht
  rwa [Nat.zero_add] at this

/-- **C63**.  Scalar product of two propagators: the sum over all the components, sites, spins and colours -/
theorem C63_prop_scalprod (sched : Nat → Nat → List Nat) (hl : ∀ rk, Reduce.Legal (sched rk)) (nso_spi n : Nat) (Qdag Q : QProp) :
    compute_prop_scalprod g sched nso_spi n Qdag Q = ∑ c ∈ box g.L, ∑ i : Fin nso_spi, ∑ b : Fin n, ∑ k : Fin 4, ∑ a : Fin 3,
      star (glob g (Qdag (so_sp_col_ind n i b)) c k a) * glob g (Q (so_sp_col_ind n i b)) c k a := by
  unfold compute_prop_scalprod
  refine reduce_sites ok sched hl _ _ fun rk hrk i hi x hx => ?_
  have hs := GForce.rank_site ok hrk hi hx
  unfold glob
  rw [hs, foldl_add', zero_add, Stag.list_range_sum]
  have e : ∀ F : Nat → ℂ, ∑ k ∈ Finset.range (nso_spi * n), F k = ∑ i : Fin nso_spi, ∑ b : Fin n, F (so_sp_col_ind n i b) := by
    intro F
    rw [Finset.sum_range, ← Fintype.sum_prod_type', ← Equiv.sum_comp (finProdFinEquiv (m := nso_spi) (n := n))]
    rfl
  rw [e]
  refine Finset.sum_congr rfl fun i _ => Finset.sum_congr rfl fun b _ => ?_
  rfl

end

end

end Nissa.Contr
