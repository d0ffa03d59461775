import Verif.Random.PropsGauss
import Mathlib.Analysis.Complex.ExponentialBounds
import Mathlib.Data.List.GetD

/-! # C58: momenta on the lattice -/

set_option linter.all false

namespace Nissa.Gauss
open Nissa.Lx Nissa.Sten
open Nissa.Ran2 (Gen getUnif drawN Valid start startLoc locGen randMax startLoc_spec locGen_spec rankOf siteOf C17_unif_range)
open Nissa.Su3f (M3)
open Nissa.Gauge (Quad)
open Matrix

theorem exp16 : (1 : ℝ) / Real.exp 16 ≤ 12 / 100000000 := by
  have h : (2.7182818283 : ℝ) ^ 16 ≤ Real.exp 16 := by
    have h1 := Real.exp_one_gt_d9
    have : Real.exp 16 = Real.exp 1 ^ 16 := by rw [← Real.exp_nat_mul]; norm_num
    rw [this]
    exact pow_le_pow_left₀ (by norm_num) h1.le 16
  rw [div_le_iff₀ (Real.exp_pos _)]
  have : (1 : ℝ) ≤ 12 / 100000000 * (2.7182818283 : ℝ) ^ 16 := by norm_num
  linarith [mul_le_mul_of_nonneg_left h (by norm_num : (0 : ℝ) ≤ 12 / 100000000)]

/-- a draw of the generator is in `[0,1-1.2·10⁻⁷]` -/
theorem unif01 (g : Gen) (hv : Valid g) : ∃ (u : ℚ) (g' : Gen), getUnif g 0 1 = some (u, g') ∧ Valid g' ∧ 0 ≤ u ∧ u ≤ 1 - 12 / 100000000 := by
  obtain ⟨u, g', e, hv', h0, -⟩ := C17_unif_range g hv 0 1 (by norm_num)
  refine ⟨u, g', e, hv', h0, ?_⟩
  unfold getUnif at e
  cases hs : Ran2.step g with
  | none => rw [hs] at e; cases e
  | some g1 =>
    rw [hs] at e
    simp only [Option.bind_eq_bind, Option.bind_some, sub_zero, mul_one, add_zero, Option.some.injEq, Prod.mk.injEq] at e
    rw [← e.1]
    exact min_le_right _ _

/-- C58: drawing a gaussian number never fails and leaves a valid generator; but the distance from the average is never above `4*sig`,
because the uniform numbers stop at `1-1.2·10⁻⁷`. -/
theorem C58_tail (ave : ℂ) (sig : ℝ) (g : Gen) (hv : Valid g) :
    ∃ z g', gaussComplex ave sig g = some (z, g') ∧ Valid g' ∧ ‖z - ave‖ ≤ 4 * |sig| := by
  obtain ⟨u1, g1, e1, v1, h0, h1⟩ := unif01 g hv
  obtain ⟨u2, g2, e2, v2, -, -⟩ := unif01 g1 v1
  refine ⟨gaussOf u1 u2 ave sig, g2, by unfold gaussComplex; simp only [e1, e2, Option.bind_eq_bind, Option.bind_some], v2, ?_⟩
  have hu : (u1 : ℝ) ≤ 1 - 12 / 100000000 := by
    have : ((u1 : ℚ) : ℝ) ≤ ((1 - 12 / 100000000 : ℚ) : ℝ) := by exact_mod_cast h1
    refine this.trans (le_of_eq ?_)
    push_cast; ring
  have hu0 : (0 : ℝ) ≤ u1 := by exact_mod_cast h0
  have hlog : -Real.log (1 - u1) ≤ 16 := by
    have h : Real.exp (-16) ≤ 1 - u1 := by
      have := exp16
      rw [Real.exp_neg, ← one_div]
      linarith
    have := (Real.le_log_iff_exp_le (by linarith)).2 h
    linarith
  have hlog0 : 0 ≤ -Real.log (1 - u1) := by
    have := Real.log_nonpos (x := 1 - (u1 : ℝ)) (by linarith) (by linarith)
    linarith
  set r := Real.sqrt (-2 * Real.log (1 - (u1 : ℝ))) with hr
  set q := 2 * Real.pi * (u2 : ℝ) with hq
  have e : gaussOf u1 u2 ave sig - ave = (((r * (sig * 0.707106781186547) : ℝ)) : ℂ) * Complex.exp (q * Complex.I) := by
    rw [Complex.exp_mul_I]
    apply Complex.ext
    · have : (gaussOf u1 u2 ave sig).re = r * Real.cos q * (sig * 0.707106781186547) + ave.re := rfl
      rw [Complex.sub_re, this, ← Complex.ofReal_cos, ← Complex.ofReal_sin, Complex.re_ofReal_mul]
      simp [-Complex.ofReal_cos, -Complex.ofReal_sin]; ring
    · have : (gaussOf u1 u2 ave sig).im = r * Real.sin q * (sig * 0.707106781186547) + ave.im := rfl
      rw [Complex.sub_im, this, ← Complex.ofReal_cos, ← Complex.ofReal_sin, Complex.im_ofReal_mul]
      simp [-Complex.ofReal_cos, -Complex.ofReal_sin]; ring
  rw [e, norm_mul, Complex.norm_exp_ofReal_mul_I, mul_one, Complex.norm_real, Real.norm_eq_abs, abs_mul, abs_mul, ← mul_assoc,
    abs_of_nonneg (Real.sqrt_nonneg _ : 0 ≤ r)]
  have hrs : r ^ 2 ≤ 32 := by rw [hr, Real.sq_sqrt (by linarith)]; linarith
  have hr0 : 0 ≤ r := Real.sqrt_nonneg _
  have h7 : r * |(0.707106781186547 : ℝ)| ≤ 4 := by
    rw [abs_of_nonneg (by norm_num)]
    refine abs_le_of_sq_le_sq' ?_ (by norm_num) |>.2
    rw [mul_pow]
    have : (0.707106781186547 : ℝ) ^ 2 ≤ 1 / 2 := by norm_num
    nlinarith [sq_nonneg r]
  calc r * |sig| * |(0.707106781186547 : ℝ)| = (r * |(0.707106781186547 : ℝ)|) * |sig| := by ring
    _ ≤ 4 * |sig| := mul_le_mul_of_nonneg_right h7 (abs_nonneg _)

theorem drawN_valid {β : Type} (comp : Gen → Option (β × Gen)) (P : β → Prop) (hc : ∀ g, Valid g → ∃ b g', comp g = some (b, g') ∧ Valid g' ∧ P b) (n : Nat) (g : Gen) (hv : Valid g) :
    ∃ l g', drawN comp n g = some (l, g') ∧ Valid g' ∧ l.length = n ∧ ∀ b ∈ l, P b := by
  induction n generalizing g with
  | zero => exact ⟨[], g, rfl, hv, rfl, by simp⟩
  | succ n ih =>
    obtain ⟨b, g1, e1, v1, p1⟩ := hc g hv
    obtain ⟨l, g2, e2, v2, h, p2⟩ := ih g1 v1
    refine ⟨b :: l, g2, by simp only [drawN, e1, e2, Option.bind_eq_bind, Option.bind_some], v2, by simp [h], ?_⟩
    intro x hx
    rcases List.mem_cons.1 hx with rfl | hx
    · exact p1
    · exact p2 x hx

theorem herm_valid (sigma : ℝ) (g : Gen) (hv : Valid g) : ∃ H g', herm_put_to_gauss sigma g = some (H, g') ∧ Valid g' ∧ Hᴴ = H := by
  obtain ⟨l, g', e, v, -, -⟩ := drawN_valid (gaussComplex 0 sigma) (fun _ => True) (fun g hv => by
    obtain ⟨z, g', a, b, -⟩ := C58_tail 0 sigma g hv; exact ⟨z, g', a, b, trivial⟩) 4 g hv
  exact ⟨_, g', by unfold herm_put_to_gauss; simp only [e, Option.bind_eq_bind, Option.bind_some]; rfl, v, (C58_momentum_matrix _).1⟩

theorem site_valid (g : Gen) (hv : Valid g) : ∃ q g', siteMomenta g = some (q, g') ∧ Valid g' ∧ ∀ mu, (q mu)ᴴ = q mu := by
  obtain ⟨l, g', e, v, h, hp⟩ := drawN_valid (herm_put_to_gauss 1) (fun H => Hᴴ = H) (herm_valid 1) 4 g hv
  refine ⟨fun mu => l.getD mu.val 0, g', by unfold siteMomenta; simp only [e, Option.bind_eq_bind, Option.bind_some], v, fun mu => ?_⟩
  have hl : mu.val < l.length := by rw [h]; exact mu.isLt
  show (l.getD mu.val 0)ᴴ = l.getD mu.val 0
  rw [List.getD_eq_getElem _ _ hl]
  exact hp _ (List.getElem_mem hl)

/-- the momenta of the site whose generator is `g` -/
noncomputable def momOf (g : Gen) : Quad := ((siteMomenta g).map Prod.fst).getD 0

/-- the loop of one parity -/
theorem momLoop (T : Nat → Nat → Nat) (par : Nat) (sites : List Nat) (hn : sites.Nodup) (hinj : ∀ a ∈ sites, ∀ b ∈ sites, T par a = T par b → a = b)
    (s : MomState) (G : Nat → Gen) (hG : ∀ e ∈ sites, s.gen (T par e) = some (G e) ∧ Valid (G e)) :
    ∃ s', sites.foldlM (momStep T par) s = some s' ∧ (∀ i, (∀ e ∈ sites, T par e ≠ i) → s'.gen i = s.gen i) ∧
      (∀ p e, ¬(p = par ∧ e ∈ sites) → s'.H p e = s.H p e) ∧ ∀ e ∈ sites, s'.H par e = momOf (G e) := by
  induction sites generalizing s with
  | nil => exact ⟨s, rfl, fun _ _ => rfl, fun _ _ _ => rfl, by simp⟩
  | cons a l ih =>
    obtain ⟨hal, hnl⟩ := List.nodup_cons.1 hn
    obtain ⟨ga, va⟩ := hG a (by simp)
    obtain ⟨q, g', e, v, -⟩ := site_valid _ va
    have h1 : momStep T par s a = some ⟨Function.update s.gen (T par a) (some g'), fun p e => if p = par ∧ e = a then q else s.H p e⟩ := by
      unfold momStep
      simp only [ga, e, Option.bind_eq_bind, Option.bind_some]
    have hne : ∀ b ∈ l, T par b ≠ T par a := fun b hb h => hal (by rw [← hinj b (by simp [hb]) a (by simp) h]; exact hb)
    obtain ⟨s', i1, i2, i3, i4⟩ := ih hnl (fun x hx y hy => hinj x (by simp [hx]) y (by simp [hy]))
      ⟨Function.update s.gen (T par a) (some g'), fun p e => if p = par ∧ e = a then q else s.H p e⟩
      (fun b hb => ⟨by show Function.update s.gen (T par a) (some g') (T par b) = _; rw [Function.update_of_ne (hne b hb)]; exact (hG b (by simp [hb])).1, (hG b (by simp [hb])).2⟩)
    refine ⟨s', ?_, ?_, ?_, ?_⟩
    · rw [List.foldlM_cons, h1]; exact i1
    · intro i hi
      rw [i2 i (fun b hb => hi b (by simp [hb]))]
      exact Function.update_of_ne (hi a (by simp)).symm _ _
    · intro p b hb
      rw [i3 p b (fun h => hb ⟨h.1, by simp [h.2]⟩)]
      show (if p = par ∧ b = a then q else s.H p b) = _
      rw [if_neg (fun h => hb ⟨h.1, by simp [h.2]⟩)]
    · intro b hb
      rcases List.mem_cons.1 hb with rfl | hb
      · rw [i3 par b (fun h => hal h.2)]
        show (if par = par ∧ b = b then q else s.H par b) = _
        rw [if_pos ⟨rfl, rfl⟩]
        unfold momOf; rw [e]; rfl
      · exact i4 b hb

theorem drawN_add {β : Type} (comp : Gen → Option (β × Gen)) (m n : Nat) (g g1 g2 : Gen) (l1 l2 : List β) (h1 : drawN comp m g = some (l1, g1)) (h2 : drawN comp n g1 = some (l2, g2)) :
    drawN comp (m + n) g = some (l1 ++ l2, g2) := by
  induction m generalizing g l1 with
  | zero =>
    simp only [drawN, Option.some.injEq, Prod.mk.injEq] at h1
    obtain ⟨rfl, rfl⟩ := h1
    rw [Nat.zero_add]; exact h2
  | succ m ih =>
    simp only [drawN, Option.bind_eq_bind] at h1
    obtain ⟨⟨b, g'⟩, e1, h1⟩ := Option.bind_eq_some_iff.1 h1
    obtain ⟨⟨l, g''⟩, e2, h1⟩ := Option.bind_eq_some_iff.1 h1
    simp only [Option.some.injEq, Prod.mk.injEq] at h1
    obtain ⟨rfl, rfl⟩ := h1
    rw [Nat.succ_add]
    simp only [drawN, Option.bind_eq_bind, e1, Option.bind_some, ih g' l e2, List.cons_append]

theorem herm_draws (sigma : ℝ) (g : Gen) (hv : Valid g) : ∃ z g', drawN (gaussComplex 0 sigma) 4 g = some (z, g') ∧ z.length = 4 ∧ Valid g' ∧
    herm_put_to_gauss sigma g = some (hermOf (eight fun i => z.getD i.val 0), g') := by
  obtain ⟨l, g', e, v, h, -⟩ := drawN_valid (gaussComplex 0 sigma) (fun _ => True) (fun g hv => by
    obtain ⟨z, g', a, b, -⟩ := C58_tail 0 sigma g hv; exact ⟨z, g', a, b, trivial⟩) 4 g hv
  exact ⟨l, g', e, h, v, by unfold herm_put_to_gauss; simp only [e, Option.bind_eq_bind, Option.bind_some]⟩

/-- the momenta of a site come from sixteen gaussian complex numbers, four for each direction -/
theorem site_draws (g : Gen) (hv : Valid g) : ∃ z g', drawN (gaussComplex 0 1) 16 g = some (z, g') ∧ z.length = 16 ∧
    siteMomenta g = some (fun mu => hermOf (eight fun i => z.getD (4 * mu.val + i.val) 0), g') := by
  obtain ⟨z0, g0, a0, l0, v0, h0⟩ := herm_draws 1 g hv
  obtain ⟨z1, g1, a1, l1, v1, h1⟩ := herm_draws 1 g0 v0
  obtain ⟨z2, g2, a2, l2, v2, h2⟩ := herm_draws 1 g1 v1
  obtain ⟨z3, g3, a3, l3, v3, h3⟩ := herm_draws 1 g2 v2
  refine ⟨z0 ++ z1 ++ z2 ++ z3, g3, drawN_add _ 12 4 _ _ _ _ _ (drawN_add _ 8 4 _ _ _ _ _ (drawN_add _ 4 4 _ _ _ _ _ a0 a1) a2) a3, by simp [l0, l1, l2, l3], ?_⟩
  unfold siteMomenta
  simp only [drawN, h0, h1, h2, h3, Option.bind_eq_bind, Option.bind_some]
  congr 2
  funext mu
  have hz : ∀ i : Fin 4, (z0 ++ z1 ++ z2 ++ z3).getD (4 * mu.val + i.val) 0 = ([z0, z1, z2, z3].getD mu.val []).getD i.val 0 := by
    intro i
    fin_cases mu
    · simp only [List.append_assoc]
      rw [List.getD_append _ _ _ _ (by simp only [l0]; omega)]; simp
    · simp only [List.append_assoc]
      rw [List.getD_append_right _ _ _ _ (by simp only [l0]; omega), List.getD_append _ _ _ _ (by simp only [l0, l1]; omega), l0]; simp
    · rw [List.append_assoc, List.append_assoc, ← List.append_assoc z0, List.getD_append_right _ _ _ _ (by simp only [List.length_append, l0, l1]; omega), List.getD_append _ _ _ _ (by simp only [List.length_append, l0, l1, l2]; omega), List.length_append, l0, l1]; simp
    · rw [List.getD_append_right _ _ _ _ (by simp only [List.length_append, l0, l1, l2]; omega), List.length_append, List.length_append, l0, l1, l2]; simp
  simp only [hz]
  fin_cases mu <;> rfl

/-- C58: the momenta depend on seed and lattice, not on the grid of ranks: for every seed there is a field `M`, hermitian, made at each site of
sixteen gaussian numbers drawn one after the other from the generator of the site, four for each direction, such that for any
grid of ranks, any order of visit of the sites and any previous content, the generation from the generators of the seed succeeds on all the
ranks and gives `M`. -/
theorem C58_momenta (L : Coords) (hV : (volOfLx L : Int) < randMax) (seed : Int) (h1 : -2 ^ 31 ≤ seed) (h2 : seed < 2 ^ 31 - 1) :
    ∃ (M : Coords → Quad) (iseed : Int), 0 ≤ iseed ∧ iseed < randMax - volOfLx L ∧ (∀ x mu, (M x mu)ᴴ = M x mu) ∧ ∀ (g : Geo), g.L = L → g.Ok → EoOk g →
      (∀ x ∈ box L, ∃ G z G', start (iseed + lxOfCoord x L) = some G ∧ drawN (gaussComplex 0 1) 16 G = some (z, G') ∧ z.length = 16 ∧
        ∀ mu : Dir, M x mu = hermOf (eight fun i => z.getD (4 * mu.val + i.val) 0)) ∧ ∀ (ji : Nat) (sched : Nat → Nat → List Nat),
      (∀ rk p, (sched rk p).Perm (List.range (g.locVol / 2))) → ∀ (H0 : Nat → Nat → Nat → Quad),
      ∃ H : Nat → Nat → Nat → Quad, (∀ rk < g.nranks, ∃ glb gens gens', startLoc g (coordOfLx rk g.R) seed = some (glb, gens) ∧
          generate_hmc_momenta (fun p e => (loclxOfLoceo g (coordOfLx rk g.R) p e).getD ji) (sched rk) ⟨gens, H0 rk⟩ = some ⟨gens', H rk⟩) ∧
        ∀ x ∈ box L, globEo g H x = M x := by
  classical
  obtain ⟨glb, iseed, hi0, hi1, hst⟩ := startLoc_spec L hV seed h1 h2
  set GG : Coords → Gen := fun x => (start (iseed + lxOfCoord x L)).getD ⟨0, 0, fun _ => 0, 0⟩ with hGG
  set M : Coords → Quad := fun x => if (∀ mu, x mu < L mu) ∧ ∃ g : Geo, g.L = L ∧ g.Ok then momOf (GG x) else 0 with hM
  have hgen : ∀ (g : Geo), g.L = L → g.Ok → ∀ x, (∀ mu, x mu < L mu) → ∃ G, locGen g (rankOf g x) iseed (siteOf g x) = some G ∧ Valid G ∧ GG x = G := by
    intro g hL ok x hx
    obtain ⟨G, a, b, c, -⟩ := locGen_spec g ok iseed hi0 (by rw [hL]; exact hi1) x (by rw [hL]; exact hx)
    refine ⟨G, a, c, ?_⟩
    rw [hL] at b
    simp only [hGG, b, Option.getD_some]
  refine ⟨M, iseed, hi0, hi1, ?_, ?_⟩
  · intro x mu
    simp only [hM]
    split
    · rename_i h
      obtain ⟨hx, g, hL, ok⟩ := h
      obtain ⟨G, -, v, e⟩ := hgen g hL ok x hx
      obtain ⟨q, g', e', -, hq⟩ := site_valid G v
      unfold momOf
      rw [e, e']
      exact hq mu
    · simp
  · intro g hL ok eo
    refine ⟨fun x hx => ?_, ?_⟩
    · obtain ⟨G, a, b, c, -⟩ := locGen_spec g ok iseed hi0 (by rw [hL]; exact hi1) x (by rw [hL]; exact mem_box.1 hx)
      rw [hL] at b
      obtain ⟨z, G', d1, d2, d3⟩ := site_draws G c
      refine ⟨G, z, G', b, d1, d2, fun mu => ?_⟩
      have hMx : M x = momOf (GG x) := by simp only [hM]; rw [if_pos ⟨mem_box.1 hx, g, hL, ok⟩]
      have hGx : GG x = G := by simp only [hGG, b, Option.getD_some]
      rw [hMx, hGx]
      unfold momOf
      rw [d3]; rfl
    intro ji sched hs H0
    have hrank : ∀ rk, ∃ H gens', rk < g.nranks → generate_hmc_momenta (fun p e => (loclxOfLoceo g (coordOfLx rk g.R) p e).getD ji) (sched rk) ⟨locGen g (coordOfLx rk g.R) iseed, H0 rk⟩ = some ⟨gens', H⟩ ∧
        ∀ x ∈ box L, ∀ e, (getLoclxAndRankOfCoords g x).1 = rk → loclxOfLoceo g (coordOfLx rk g.R) (par x) e = some (getLoclxAndRankOfCoords g x).2 → e < g.locVol / 2 → H (par x) e = M x := by
      intro rk
      by_cases hrk : rk < g.nranks
      swap
      · exact ⟨fun _ _ => 0, fun _ => none, fun h => absurd h hrk⟩
      set T : Nat → Nat → Nat := fun p e => (loclxOfLoceo g (coordOfLx rk g.R) p e).getD ji with hT
      have hall : g.locVol / 2 ≤ (g.locVol + g.bordVol + g.edgeVol) / 2 := by omega
      have site : ∀ p e, p < 2 → e < g.locVol / 2 → ∃ l, T p e = l ∧ l < g.locVol ∧ loclxParity g (coordOfLx rk g.R) l = some p ∧ loceoOfLoclx g (coordOfLx rk g.R) l = some e := by
        intro p e hp he
        obtain ⟨l, a1, a2, a3, a4, a5⟩ := C07_lx_of_eo g ok eo (coordOfLx rk g.R) p e hp (by omega)
        exact ⟨l, by simp [hT, a1], a5 he, a3, a4⟩
      have inj : ∀ p e p' e', p < 2 → p' < 2 → e < g.locVol / 2 → e' < g.locVol / 2 → T p e = T p' e' → p = p' ∧ e = e' := by
        intro p e p' e' hp hp' he he' h
        obtain ⟨l, a1, a2, a3, a4⟩ := site p e hp he
        obtain ⟨l', b1, b2, b3, b4⟩ := site p' e' hp' he'
        rw [a1, b1] at h
        subst h
        rw [a3, Option.some.injEq] at b3
        rw [a4, Option.some.injEq] at b4
        exact ⟨b3, b4⟩
      have hloc : ∀ l, l < g.locVol → ∃ x, (∀ mu, x mu < L mu) ∧ getLoclxAndRankOfCoords g x = (rk, l) ∧ locGen g (coordOfLx rk g.R) iseed l = some (GG x) ∧ Valid (GG x) := by
        intro l hl
        obtain ⟨x, ⟨hx, hxl⟩, -⟩ := C02_bijective g ok rk l hrk hl
        obtain ⟨G, a, b, c⟩ := hgen g hL ok x (by rw [← hL]; exact hx)
        unfold rankOf siteOf at a
        rw [hxl] at a
        exact ⟨x, by rw [← hL]; exact hx, hxl, by rw [c]; exact a, by rw [c]; exact b⟩
      have memR : ∀ p e, e ∈ sched rk p → e < g.locVol / 2 := fun p e he => List.mem_range.1 ((hs rk p).subset he)
      set gl : Nat → Gen := fun l => (locGen g (coordOfLx rk g.R) iseed l).getD ⟨0, 0, fun _ => 0, 0⟩ with hgl
      have hglv : ∀ l, l < g.locVol → locGen g (coordOfLx rk g.R) iseed l = some (gl l) ∧ Valid (gl l) := by
        intro l hl
        obtain ⟨x, -, -, a, b⟩ := hloc l hl
        simp only [hgl, a, Option.getD_some]
        exact ⟨trivial, b⟩
      obtain ⟨s1, a1, a2, a3, a4⟩ := momLoop T 0 (sched rk 0) ((hs rk 0).symm.nodup List.nodup_range)
        (fun a ha b hb h => (inj 0 a 0 b (by omega) (by omega) (memR 0 a ha) (memR 0 b hb) h).2) ⟨locGen g (coordOfLx rk g.R) iseed, H0 rk⟩ (fun e => gl (T 0 e))
        (fun e he => by obtain ⟨l, c1, c2, -⟩ := site 0 e (by omega) (memR 0 e he); rw [c1]; exact hglv l c2)
      obtain ⟨s2, b1, b2, b3, b4⟩ := momLoop T 1 (sched rk 1) ((hs rk 1).symm.nodup List.nodup_range)
        (fun a ha b hb h => (inj 1 a 1 b (by omega) (by omega) (memR 1 a ha) (memR 1 b hb) h).2) s1 (fun e => gl (T 1 e))
        (fun e he => by
          obtain ⟨l, c1, c2, -⟩ := site 1 e (by omega) (memR 1 e he)
          rw [a2 _ (fun e' he' h => by have := (inj 0 e' 1 e (by omega) (by omega) (memR 0 e' he') (memR 1 e he) h).1; omega), c1]
          exact hglv l c2)
      refine ⟨s2.H, s2.gen, fun _ => ⟨?_, ?_⟩⟩
      · unfold generate_hmc_momenta
        simp only [List.foldlM_cons, List.foldlM_nil, a1, b1, Option.bind_eq_bind, Option.bind_some, Option.pure_def]
      · intro x hx e hr hl he
        have hTx : T (par x) e = (getLoclxAndRankOfCoords g x).2 := by simp [hT, hl]
        have hxL := mem_box.1 hx
        have hgx : gl (T (par x) e) = GG x := by
          obtain ⟨G, a, b, c⟩ := hgen g hL ok x hxL
          unfold rankOf siteOf at a
          rw [hr] at a
          rw [hTx]
          simp only [hgl, a, Option.getD_some, c]
        have hMx : M x = momOf (GG x) := by simp only [hM]; rw [if_pos ⟨hxL, g, hL, ok⟩]
        rw [hMx, ← hgx]
        have hp : par x = 0 ∨ par x = 1 := by unfold par; omega
        rcases hp with hp | hp
        · rw [hp, b3 0 e (fun h => absurd h.1 (by omega))]
          exact a4 e ((hs rk 0).symm.subset (List.mem_range.2 he))
        · rw [hp]
          exact b4 e ((hs rk 1).symm.subset (List.mem_range.2 he))
    choose H gens' hH using hrank
    refine ⟨H, fun rk hrk => ⟨glb, _, gens' rk, hst g _ hL, (hH rk hrk).1⟩, fun x hx => ?_⟩
    obtain ⟨k1, k2, -, k4, -⟩ := C02_rank_and_loclx g ok x (by rw [hL]; exact mem_box.1 hx)
    obtain ⟨c, p, e, m1, m2, m3, m4, m5, m6, -⟩ := C07_eo_of_lx g ok eo (coordOfLx (getLoclxAndRankOfCoords g x).1 g.R) (getLoclxAndRankOfCoords g x).2 (by omega)
    rw [k4] at m1; cases m1
    have : globEo g H x = H (getLoclxAndRankOfCoords g x).1 (par x) e := by unfold globEo; rw [m4]; rfl
    rw [this]
    exact (hH _ k1).2 x hx e rfl (by rw [m2] at m5; exact m5) (m6.1 k2)

/-- C58: the gaussian colour vectors never fail, and are three complex gaussian numbers -/
theorem C58_color (sigma : ℝ) (g : Gen) (hv : Valid g) : ∃ v g', color_put_to_gauss sigma g = some (v, g') ∧ v.length = 3 ∧ ∀ z ∈ v, ‖z‖ ≤ 4 * |sigma| := by
  obtain ⟨l, g', e, v, h, hp⟩ := drawN_valid (gaussComplex 0 sigma) (fun z => ‖z‖ ≤ 4 * |sigma|) (fun g hv => by
    obtain ⟨z, g', a, b, c⟩ := C58_tail 0 sigma g hv; exact ⟨z, g', a, b, by simpa using c⟩) 3 g hv
  exact ⟨l, g', e, h, hp⟩

/-- two grids of the same lattice -/
example : ∃ M : Coords → Quad, ∀ g ∈ [(⟨![8, 4, 4, 4], ![2, 2, 1, 1]⟩ : Geo), ⟨![8, 4, 4, 4], ![4, 1, 1, 1]⟩],
    ∃ H : Nat → Nat → Nat → Quad, (∀ rk < g.nranks, ∃ glb gens gens', startLoc g (coordOfLx rk g.R) 1234 = some (glb, gens) ∧
      generate_hmc_momenta (fun p e => (loclxOfLoceo g (coordOfLx rk g.R) p e).getD 0) (fun _ => List.range (g.locVol / 2)) ⟨gens, fun _ _ => 0⟩ = some ⟨gens', H rk⟩) ∧
      ∀ x ∈ box ![8, 4, 4, 4], globEo g H x = M x := by
  obtain ⟨M, iseed, -, -, -, h⟩ := C58_momenta ![8, 4, 4, 4] (by decide) 1234 (by decide) (by decide)
  refine ⟨M, fun g hg => ?_⟩
  simp only [List.mem_cons, List.not_mem_nil, or_false] at hg
  rcases hg with rfl | rfl
  · exact (h _ rfl (by decide) (by decide)).2 0 (fun rk _ => _) (fun _ _ => List.Perm.refl _) (fun _ _ _ => 0)
  · exact (h _ rfl (by decide) (by decide)).2 0 (fun rk _ => _) (fun _ _ => List.Perm.refl _) (fun _ _ _ => 0)

end Nissa.Gauss
