import Verif.Random.Hot
import Verif.Random.PropsGauss2
import Verif.Random.PropsGauss3

/-! # C58: the random configuration on the lattice -/

set_option linter.all false

namespace Nissa.Gauss
open Nissa.Lx Nissa.Sten
open Nissa.Ran2 (Gen getUnif drawN Valid start startLoc locGen randMax startLoc_spec locGen_spec rankOf siteOf C17_unif_range)
open Nissa.Su3f
open Nissa.Gauge (Quad)
open Matrix

theorem link_valid (g : Gen) (hv : Valid g) : ∃ (z : List ℚ) (g' : Gen), drawN (fun g => getUnif g 0 1) 9 g = some (z, g') ∧ z.length = 9 ∧ Valid g' ∧
    rndLink g = some (su3_put_to_rnd (fun i j => ((z.getD (3 * i.val + j.val) 0 : ℚ) : ℝ)), g') ∧
    IsSU3 (su3_put_to_rnd (fun i j => ((z.getD (3 * i.val + j.val) 0 : ℚ) : ℝ))) := by
  obtain ⟨l, g', e, v, h, hp⟩ := drawN_valid (fun g => getUnif g 0 1) (fun u : ℚ => 0 ≤ u ∧ u ≤ 1) (fun g hv => by
    obtain ⟨u, g', a, b, c, d⟩ := unif01 g hv
    exact ⟨u, g', a, b, c, by linarith⟩) 9 g hv
  refine ⟨l, g', e, h, v, by unfold rndLink; simp only [e, Option.bind_eq_bind, Option.bind_some], C58_link_su3 _ fun i j => ?_⟩
  have hl : 3 * i.val + j.val < l.length := by rw [h]; omega
  rw [List.getD_eq_getElem _ _ hl]
  have := hp _ (List.getElem_mem hl)
  exact ⟨by exact_mod_cast this.1, by exact_mod_cast this.2⟩

/-- the links of a site come from thirty six numbers, nine for each direction -/
theorem hot_draws (g : Gen) (hv : Valid g) : ∃ (z : List ℚ) (g' : Gen), drawN (fun g => getUnif g 0 1) 36 g = some (z, g') ∧ z.length = 36 ∧
    hotSite g = some (fun mu => su3_put_to_rnd (fun i j => ((z.getD (9 * mu.val + (3 * i.val + j.val)) 0 : ℚ) : ℝ)), g') := by
  obtain ⟨z0, g0, a0, l0, v0, h0, -⟩ := link_valid g hv
  obtain ⟨z1, g1, a1, l1, v1, h1, -⟩ := link_valid g0 v0
  obtain ⟨z2, g2, a2, l2, v2, h2, -⟩ := link_valid g1 v1
  obtain ⟨z3, g3, a3, l3, v3, h3, -⟩ := link_valid g2 v2
  refine ⟨z0 ++ z1 ++ z2 ++ z3, g3, drawN_add _ 27 9 _ _ _ _ _ (drawN_add _ 18 9 _ _ _ _ _ (drawN_add _ 9 9 _ _ _ _ _ a0 a1) a2) a3, by simp [l0, l1, l2, l3], ?_⟩
  unfold hotSite
  simp only [drawN, h0, h1, h2, h3, Option.bind_eq_bind, Option.bind_some]
  congr 2
  funext mu
  have hz : ∀ n, n < 9 → (z0 ++ z1 ++ z2 ++ z3).getD (9 * mu.val + n) 0 = ([z0, z1, z2, z3].getD mu.val []).getD n 0 := by
    intro n hn
    fin_cases mu
    · simp only [List.append_assoc]
      rw [List.getD_append _ _ _ _ (by simp only [l0]; omega)]; simp
    · simp only [List.append_assoc]
      rw [List.getD_append_right _ _ _ _ (by simp only [l0]; omega), List.getD_append _ _ _ _ (by simp only [l0, l1]; omega), l0]; simp
    · rw [List.append_assoc, List.append_assoc, ← List.append_assoc z0, List.getD_append_right _ _ _ _ (by simp only [List.length_append, l0, l1]; omega), List.getD_append _ _ _ _ (by simp only [List.length_append, l0, l1, l2]; omega), List.length_append, l0, l1]; simp
    · rw [List.getD_append_right _ _ _ _ (by simp only [List.length_append, l0, l1, l2]; omega), List.length_append, List.length_append, l0, l1, l2]; simp
  have hz' : ∀ i j : Fin 3, (z0 ++ z1 ++ z2 ++ z3).getD (9 * mu.val + (3 * i.val + j.val)) 0 = ([z0, z1, z2, z3].getD mu.val []).getD (3 * i.val + j.val) 0 :=
    fun i j => hz _ (by omega)
  simp only [hz']
  fin_cases mu <;> rfl

theorem hot_valid (g : Gen) (hv : Valid g) : ∃ q g', hotSite g = some (q, g') ∧ Valid g' ∧ ∀ mu, IsSU3 (q mu) := by
  obtain ⟨l, g', e, v, h, hp⟩ := drawN_valid rndLink IsSU3 (fun g hv => by
    obtain ⟨z, g', -, -, v, a, b⟩ := link_valid g hv; exact ⟨_, g', a, v, b⟩) 4 g hv
  refine ⟨fun mu => l.getD mu.val 1, g', by unfold hotSite; simp only [e, Option.bind_eq_bind, Option.bind_some], v, fun mu => ?_⟩
  have hl : mu.val < l.length := by rw [h]; exact mu.isLt
  show IsSU3 (l.getD mu.val 1)
  rw [List.getD_eq_getElem _ _ hl]
  exact hp _ (List.getElem_mem hl)

/-- the links of the site whose generator is `g` -/
noncomputable def hotOf (g : Gen) : Quad := ((hotSite g).map Prod.fst).getD (fun _ => 1)

/-- the generator of the site after it -/
noncomputable def genOf (g : Gen) : Gen := ((hotSite g).map Prod.snd).getD g

/-- the loop of one parity -/
theorem hotLoop (T : Nat → Nat → Nat) (par : Nat) (sites : List Nat) (hn : sites.Nodup) (hinj : ∀ a ∈ sites, ∀ b ∈ sites, T par a = T par b → a = b)
    (s : MomState) (G : Nat → Gen) (hG : ∀ e ∈ sites, s.gen (T par e) = some (G e) ∧ Valid (G e)) :
    ∃ s', sites.foldlM (hotStep T par) s = some s' ∧ (∀ i, (∀ e ∈ sites, T par e ≠ i) → s'.gen i = s.gen i) ∧
      (∀ p e, ¬(p = par ∧ e ∈ sites) → s'.H p e = s.H p e) ∧ (∀ e ∈ sites, s'.H par e = hotOf (G e)) ∧ ∀ e ∈ sites, s'.gen (T par e) = some (genOf (G e)) := by
  induction sites generalizing s with
  | nil => exact ⟨s, rfl, fun _ _ => rfl, fun _ _ _ => rfl, by simp, by simp⟩
  | cons a l ih =>
    obtain ⟨hal, hnl⟩ := List.nodup_cons.1 hn
    obtain ⟨ga, va⟩ := hG a (by simp)
    obtain ⟨q, g', e, v, -⟩ := hot_valid _ va
    have h1 : hotStep T par s a = some ⟨Function.update s.gen (T par a) (some g'), fun p e => if p = par ∧ e = a then q else s.H p e⟩ := by
      unfold hotStep
      simp only [ga, e, Option.bind_eq_bind, Option.bind_some]
    have hne : ∀ b ∈ l, T par b ≠ T par a := fun b hb h => hal (by rw [← hinj b (by simp [hb]) a (by simp) h]; exact hb)
    obtain ⟨s', i1, i2, i3, i4, i5⟩ := ih hnl (fun x hx y hy => hinj x (by simp [hx]) y (by simp [hy]))
      ⟨Function.update s.gen (T par a) (some g'), fun p e => if p = par ∧ e = a then q else s.H p e⟩
      (fun b hb => ⟨by show Function.update s.gen (T par a) (some g') (T par b) = _; rw [Function.update_of_ne (hne b hb)]; exact (hG b (by simp [hb])).1, (hG b (by simp [hb])).2⟩)
    refine ⟨s', ?_, ?_, ?_, ?_, ?_⟩
    · rw [List.foldlM_cons, h1]; exact i1
    · intro i hi
      rw [i2 i (fun b hb => hi b (by simp [hb]))]
      exact Function.update_of_ne (hi a (by simp)).symm _ _
    · intro p b hb
      rw [i3 p b (fun h => hb ⟨h.1, by simp [h.2]⟩)]
      show (if p = par ∧ b = a then q else s.H p b) = _
      rw [if_neg (fun h => hb ⟨h.1, by simp [h.2]⟩)]
    · intro b hb
      rcases List.mem_cons.1 hb with rfl | hb
      · rw [i3 par b (fun h => hal h.2)]
        show (if par = par ∧ b = b then q else s.H par b) = _
        rw [if_pos ⟨rfl, rfl⟩]
        unfold hotOf; rw [e]; rfl
      · exact i4 b hb
    · intro b hb
      rcases List.mem_cons.1 hb with rfl | hb
      · rw [i2 _ hne]
        show Function.update s.gen (T par b) (some g') (T par b) = _
        rw [Function.update_self]
        unfold genOf; rw [e]; rfl
      · exact i5 b hb

/-- C58: the random configuration depends on seed and lattice, not on the grid of ranks: for every seed there is a configuration `M` of links of SU(3), made at each site of
thirty six numbers of the unit interval drawn one after the other from the generator of the site, nine for each direction, such that for any grid of ranks, any order of
visit of the sites and any previous content, the generation from the generators of the seed succeeds on all the ranks and gives `M`, leaving
the generators of the sites after the thirty six numbers. -/
theorem C58_hot (L : Coords) (hV : (volOfLx L : Int) < randMax) (seed : Int) (h1 : -2 ^ 31 ≤ seed) (h2 : seed < 2 ^ 31 - 1) :
    ∃ (M : Coords → Quad) (iseed : Int), 0 ≤ iseed ∧ iseed < randMax - volOfLx L ∧ (∀ x mu, IsSU3 (M x mu)) ∧ ∀ (g : Geo), g.L = L → g.Ok → EoOk g →
      (∀ x ∈ box L, ∃ G z G', start (iseed + lxOfCoord x L) = some G ∧ drawN (fun g => getUnif g 0 1) 36 G = some (z, G') ∧ z.length = 36 ∧
        ∀ mu : Dir, M x mu = su3_put_to_rnd (fun i j => ((z.getD (9 * mu.val + (3 * i.val + j.val)) 0 : ℚ) : ℝ))) ∧ ∀ (ji : Nat) (sched : Nat → Nat → List Nat),
      (∀ rk p, (sched rk p).Perm (List.range (g.locVol / 2))) → ∀ (H0 : Nat → Nat → Nat → Quad),
      ∃ H : Nat → Nat → Nat → Quad, (∀ rk < g.nranks, ∃ glb gens gens', startLoc g (coordOfLx rk g.R) seed = some (glb, gens) ∧
          generate_hot_eo_conf (fun p e => (loclxOfLoceo g (coordOfLx rk g.R) p e).getD ji) (sched rk) ⟨gens, H0 rk⟩ = some ⟨gens', H rk⟩ ∧
          ∀ l < g.locVol, ∃ G z G', gens l = some G ∧ drawN (fun g => getUnif g 0 1) 36 G = some (z, G') ∧ gens' l = some G') ∧
        ∀ x ∈ box L, globEo g H x = M x := by
  classical
  obtain ⟨glb, iseed, hi0, hi1, hst⟩ := startLoc_spec L hV seed h1 h2
  set GG : Coords → Gen := fun x => (start (iseed + lxOfCoord x L)).getD ⟨0, 0, fun _ => 0, 0⟩ with hGG
  set M : Coords → Quad := fun x => if (∀ mu, x mu < L mu) ∧ ∃ g : Geo, g.L = L ∧ g.Ok then hotOf (GG x) else fun _ => 1 with hM
  have hgen : ∀ (g : Geo), g.L = L → g.Ok → ∀ x, (∀ mu, x mu < L mu) → ∃ G, locGen g (rankOf g x) iseed (siteOf g x) = some G ∧ Valid G ∧ GG x = G := by
    intro g hL ok x hx
    obtain ⟨G, a, b, c, -⟩ := locGen_spec g ok iseed hi0 (by rw [hL]; exact hi1) x (by rw [hL]; exact hx)
    refine ⟨G, a, c, ?_⟩
    rw [hL] at b
    simp only [hGG, b, Option.getD_some]
  refine ⟨M, iseed, hi0, hi1, ?_, ?_⟩
  · intro x mu
    simp only [hM]
    split
    · rename_i h
      obtain ⟨hx, g, hL, ok⟩ := h
      obtain ⟨G, -, v, e⟩ := hgen g hL ok x hx
      obtain ⟨q, g', e', -, hq⟩ := hot_valid G v
      unfold hotOf
      rw [e, e']
      exact hq mu
    · exact ⟨by simp, by simp⟩
  · intro g hL ok eo
    refine ⟨fun x hx => ?_, ?_⟩
    · obtain ⟨G, a, b, c, -⟩ := locGen_spec g ok iseed hi0 (by rw [hL]; exact hi1) x (by rw [hL]; exact mem_box.1 hx)
      rw [hL] at b
      obtain ⟨z, G', d1, d2, d3⟩ := hot_draws G c
      refine ⟨G, z, G', b, d1, d2, fun mu => ?_⟩
      have hMx : M x = hotOf (GG x) := by simp only [hM]; rw [if_pos ⟨mem_box.1 hx, g, hL, ok⟩]
      have hGx : GG x = G := by simp only [hGG, b, Option.getD_some]
      rw [hMx, hGx]
      unfold hotOf
      rw [d3]; rfl
    intro ji sched hs H0
    have hrank : ∀ rk, ∃ H gens', rk < g.nranks → generate_hot_eo_conf (fun p e => (loclxOfLoceo g (coordOfLx rk g.R) p e).getD ji) (sched rk) ⟨locGen g (coordOfLx rk g.R) iseed, H0 rk⟩ = some ⟨gens', H⟩ ∧
        (∀ l < g.locVol, ∃ G z G', locGen g (coordOfLx rk g.R) iseed l = some G ∧ drawN (fun g => getUnif g 0 1) 36 G = some (z, G') ∧ gens' l = some G') ∧
        ∀ x ∈ box L, ∀ e, (getLoclxAndRankOfCoords g x).1 = rk → loclxOfLoceo g (coordOfLx rk g.R) (par x) e = some (getLoclxAndRankOfCoords g x).2 → e < g.locVol / 2 → H (par x) e = M x := by
      intro rk
      by_cases hrk : rk < g.nranks
      swap
      · exact ⟨fun _ _ => 0, fun _ => none, fun h => absurd h hrk⟩
      set T : Nat → Nat → Nat := fun p e => (loclxOfLoceo g (coordOfLx rk g.R) p e).getD ji with hT
      have hall : g.locVol / 2 ≤ (g.locVol + g.bordVol + g.edgeVol) / 2 := by omega
      have site : ∀ p e, p < 2 → e < g.locVol / 2 → ∃ l, T p e = l ∧ l < g.locVol ∧ loclxParity g (coordOfLx rk g.R) l = some p ∧ loceoOfLoclx g (coordOfLx rk g.R) l = some e := by
        intro p e hp he
        obtain ⟨l, a1, a2, a3, a4, a5⟩ := C07_lx_of_eo g ok eo (coordOfLx rk g.R) p e hp (by omega)
        exact ⟨l, by simp [hT, a1], a5 he, a3, a4⟩
      have inj : ∀ p e p' e', p < 2 → p' < 2 → e < g.locVol / 2 → e' < g.locVol / 2 → T p e = T p' e' → p = p' ∧ e = e' := by
        intro p e p' e' hp hp' he he' h
        obtain ⟨l, a1, a2, a3, a4⟩ := site p e hp he
        obtain ⟨l', b1, b2, b3, b4⟩ := site p' e' hp' he'
        rw [a1, b1] at h
        subst h
        rw [a3, Option.some.injEq] at b3
        rw [a4, Option.some.injEq] at b4
        exact ⟨b3, b4⟩
      have hloc : ∀ l, l < g.locVol → ∃ x, (∀ mu, x mu < L mu) ∧ getLoclxAndRankOfCoords g x = (rk, l) ∧ locGen g (coordOfLx rk g.R) iseed l = some (GG x) ∧ Valid (GG x) := by
        intro l hl
        obtain ⟨x, ⟨hx, hxl⟩, -⟩ := C02_bijective g ok rk l hrk hl
        obtain ⟨G, a, b, c⟩ := hgen g hL ok x (by rw [← hL]; exact hx)
        unfold rankOf siteOf at a
        rw [hxl] at a
        exact ⟨x, by rw [← hL]; exact hx, hxl, by rw [c]; exact a, by rw [c]; exact b⟩
      have memR : ∀ p e, e ∈ sched rk p → e < g.locVol / 2 := fun p e he => List.mem_range.1 ((hs rk p).subset he)
      set gl : Nat → Gen := fun l => (locGen g (coordOfLx rk g.R) iseed l).getD ⟨0, 0, fun _ => 0, 0⟩ with hgl
      have hglv : ∀ l, l < g.locVol → locGen g (coordOfLx rk g.R) iseed l = some (gl l) ∧ Valid (gl l) := by
        intro l hl
        obtain ⟨x, -, -, a, b⟩ := hloc l hl
        simp only [hgl, a, Option.getD_some]
        exact ⟨trivial, b⟩
      obtain ⟨s1, a1, a2, a3, a4, a5⟩ := hotLoop T 0 (sched rk 0) ((hs rk 0).symm.nodup List.nodup_range)
        (fun a ha b hb h => (inj 0 a 0 b (by omega) (by omega) (memR 0 a ha) (memR 0 b hb) h).2) ⟨locGen g (coordOfLx rk g.R) iseed, H0 rk⟩ (fun e => gl (T 0 e))
        (fun e he => by obtain ⟨l, c1, c2, -⟩ := site 0 e (by omega) (memR 0 e he); rw [c1]; exact hglv l c2)
      obtain ⟨s2, b1, b2, b3, b4, b5⟩ := hotLoop T 1 (sched rk 1) ((hs rk 1).symm.nodup List.nodup_range)
        (fun a ha b hb h => (inj 1 a 1 b (by omega) (by omega) (memR 1 a ha) (memR 1 b hb) h).2) s1 (fun e => gl (T 1 e))
        (fun e he => by
          obtain ⟨l, c1, c2, -⟩ := site 1 e (by omega) (memR 1 e he)
          rw [a2 _ (fun e' he' h => by have := (inj 0 e' 1 e (by omega) (by omega) (memR 0 e' he') (memR 1 e he) h).1; omega), c1]
          exact hglv l c2)
      refine ⟨s2.H, s2.gen, fun _ => ⟨?_, ?_, ?_⟩⟩
      · unfold generate_hot_eo_conf
        simp only [List.foldlM_cons, List.foldlM_nil, a1, b1, Option.bind_eq_bind, Option.bind_some, Option.pure_def]
      · intro l hl
        obtain ⟨c, p, e, m1, m2, m3, m4, m5, m6, -⟩ := C07_eo_of_lx g ok eo (coordOfLx rk g.R) l (by omega)
        have he : e < g.locVol / 2 := m6.1 hl
        have hTl : T p e = l := by simp [hT, m5]
        obtain ⟨hg1, hg2⟩ := hglv l hl
        obtain ⟨z, G', d1, d2, d3⟩ := hot_draws (gl l) hg2
        have hG : genOf (gl l) = G' := by unfold genOf; rw [d3]; rfl
        refine ⟨gl l, z, G', hg1, d1, ?_⟩
        have hp : p = 0 ∨ p = 1 := by rw [m2]; omega
        rcases hp with rfl | rfl
        · rw [← hTl, b2 _ (fun e' he' h => by have := (inj 1 e' 0 e (by omega) (by omega) (memR 1 e' he') he h).1; omega),
            a5 e ((hs rk 0).symm.subset (List.mem_range.2 he)), hTl, hG]
        · rw [← hTl, b5 e ((hs rk 1).symm.subset (List.mem_range.2 he)), hTl, hG]
      · intro x hx e hr hl he
        have hTx : T (par x) e = (getLoclxAndRankOfCoords g x).2 := by simp [hT, hl]
        have hxL := mem_box.1 hx
        have hgx : gl (T (par x) e) = GG x := by
          obtain ⟨G, a, b, c⟩ := hgen g hL ok x hxL
          unfold rankOf siteOf at a
          rw [hr] at a
          rw [hTx]
          simp only [hgl, a, Option.getD_some, c]
        have hMx : M x = hotOf (GG x) := by simp only [hM]; rw [if_pos ⟨hxL, g, hL, ok⟩]
        rw [hMx, ← hgx]
        have hp : par x = 0 ∨ par x = 1 := by unfold par; omega
        rcases hp with hp | hp
        · rw [hp, b3 0 e (fun h => absurd h.1 (by omega))]
          exact a4 e ((hs rk 0).symm.subset (List.mem_range.2 he))
        · rw [hp]
          exact b4 e ((hs rk 1).symm.subset (List.mem_range.2 he))
    choose H gens' hH using hrank
    refine ⟨H, fun rk hrk => ⟨glb, _, gens' rk, hst g _ hL, (hH rk hrk).1, (hH rk hrk).2.1⟩, fun x hx => ?_⟩
    obtain ⟨k1, k2, -, k4, -⟩ := C02_rank_and_loclx g ok x (by rw [hL]; exact mem_box.1 hx)
    obtain ⟨c, p, e, m1, m2, m3, m4, m5, m6, -⟩ := C07_eo_of_lx g ok eo (coordOfLx (getLoclxAndRankOfCoords g x).1 g.R) (getLoclxAndRankOfCoords g x).2 (by omega)
    rw [k4] at m1; cases m1
    have : globEo g H x = H (getLoclxAndRankOfCoords g x).1 (par x) e := by unfold globEo; rw [m4]; rfl
    rw [this]
    exact (hH _ k1).2.2 x hx e rfl (by rw [m2] at m5; exact m5) (m6.1 k2)

/-- instance: the 8x4^3 lattice with two grids -/
example : ∃ M : Coords → Quad, ∀ g ∈ [(⟨![8, 4, 4, 4], ![2, 2, 1, 1]⟩ : Geo), ⟨![8, 4, 4, 4], ![4, 1, 1, 1]⟩],
    ∃ H : Nat → Nat → Nat → Quad, (∀ rk < g.nranks, ∃ glb gens gens', startLoc g (coordOfLx rk g.R) 1234 = some (glb, gens) ∧
      generate_hot_eo_conf (fun p e => (loclxOfLoceo g (coordOfLx rk g.R) p e).getD 0) (fun _ => List.range (g.locVol / 2)) ⟨gens, fun _ _ => 0⟩ = some ⟨gens', H rk⟩ ∧
      ∀ l < g.locVol, ∃ G z G', gens l = some G ∧ drawN (fun g => getUnif g 0 1) 36 G = some (z, G') ∧ gens' l = some G') ∧
      ∀ x ∈ box ![8, 4, 4, 4], globEo g H x = M x := by
  obtain ⟨M, iseed, -, -, -, h⟩ := C58_hot ![8, 4, 4, 4] (by decide) 1234 (by decide) (by decide)
  refine ⟨M, fun g hg => ?_⟩
  simp only [List.mem_cons, List.not_mem_nil, or_false] at hg
  rcases hg with rfl | rfl
  · exact (h _ rfl (by decide) (by decide)).2 0 (fun rk _ => _) (fun _ _ => List.Perm.refl _) (fun _ _ _ => 0)
  · exact (h _ rfl (by decide) (by decide)).2 0 (fun rk _ => _) (fun _ _ => List.Perm.refl _) (fun _ _ _ => 0)

end Nissa.Gauss
