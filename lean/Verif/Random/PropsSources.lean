/- C19: seeding and sources do not depend on the decomposition among ranks. -/
import Verif.Random.Sources
import Verif.Random.PropsRan2
import Mathlib.Data.List.Nodup
set_option linter.all false

namespace Nissa.Ran2
open Nissa.Lx (Coords Geo Dir getLoclxAndRankOfCoords coordOfLx lxOfCoord glbCoordOfLoclx glblxOfLoclx)

/-- rank (as coordinates in the grid of ranks) holding the global site `c` -/
def rankOf (g : Geo) (c : Coords) : Coords := coordOfLx (getLoclxAndRankOfCoords g c).1 g.R

/-- local index of the global site `c` on that rank -/
def siteOf (g : Geo) (c : Coords) : Nat := (getLoclxAndRankOfCoords g c).2

theorem truncZ_range {u : ℚ} {m : Int} (h0 : 0 ≤ u) (h1 : u < m) : 0 ≤ truncZ u ∧ truncZ u < m := by
  rw [truncZ, if_pos h0]
  exact ⟨Int.floor_nonneg.2 h0, Int.floor_lt.2 h1⟩

theorem startLoc_spec (L : Coords) (hV : (Nissa.Lx.volOfLx L : Int) < randMax) (seed : Int) (h1 : -2 ^ 31 ≤ seed) (h2 : seed < 2 ^ 31 - 1) :
    ∃ (glb : Gen) (iseed : Int), 0 ≤ iseed ∧ iseed < randMax - Nissa.Lx.volOfLx L ∧
      ∀ (g : Geo) (r : Coords), g.L = L → startLoc g r seed = some (glb, locGen g r iseed) := by
  obtain ⟨g0, e0, hv, -⟩ := C17_start seed h1 h2 (fun _ => 0)
  have hlt : (0 : ℚ) < (randMax : ℚ) - (Nissa.Lx.volOfLx L : ℚ) := by
    rw [sub_pos]
    exact_mod_cast hV
  obtain ⟨u, g1, e1, -, hu0, hu1⟩ := C17_unif_range g0 hv 0 ((randMax : ℚ) - (Nissa.Lx.volOfLx L : ℚ)) hlt
  have := truncZ_range (m := randMax - (Nissa.Lx.volOfLx L : Int)) hu0 (by push_cast; exact hu1)
  refine ⟨g1, truncZ u, this.1, this.2, fun g r hg => ?_⟩
  have hvol : g.glbVol = Nissa.Lx.volOfLx L := by rw [Geo.glbVol, hg]
  simp only [startLoc, e0, internalSeed, hvol, e1, Option.bind_eq_bind, Option.bind_some]

theorem lxOfCoord_inj {L c c' : Coords} (hc : ∀ mu, c mu < L mu) (hc' : ∀ mu, c' mu < L mu) (h : lxOfCoord c L = lxOfCoord c' L) : c = c' := by
  rw [← (Nissa.Lx.C01_coordOfLx_lxOfCoord L c hc).2, ← (Nissa.Lx.C01_coordOfLx_lxOfCoord L c' hc').2, h]

theorem locGen_spec (g : Geo) (ok : g.Ok) (iseed : Int) (h0 : 0 ≤ iseed) (h1 : iseed < randMax - Nissa.Lx.volOfLx g.L) (c : Coords) (hc : ∀ mu, c mu < g.L mu) :
    ∃ G, locGen g (rankOf g c) iseed (siteOf g c) = some G ∧ start (iseed + lxOfCoord c g.L) = some G ∧ Valid G ∧ G.idum2 = iseed + lxOfCoord c g.L + 1 := by
  obtain ⟨-, -, -, -, hlx⟩ := Nissa.Lx.C02_rank_and_loclx g ok c hc
  have hlt := (Nissa.Lx.C01_coordOfLx_lxOfCoord g.L c hc).1
  unfold locGen
  rw [show glblxOfLoclx g (rankOf g c) (siteOf g c) = some (lxOfCoord c g.L) from hlx]
  have hm : randMax = 2147483647 := rfl
  rw [hm] at h1
  have hs : ¬ (iseed + (lxOfCoord c g.L : Int) < 0) := by omega
  simp only [Option.bind_eq_bind, Option.bind_some, if_neg hs]
  have ht : Nissa.Lx.toInt32 (iseed + (lxOfCoord c g.L : Int)) = iseed + (lxOfCoord c g.L : Int) := by
    unfold Nissa.Lx.toInt32
    exact Int.bmod_eq_of_le (by omega) (by omega)
  rw [ht]
  obtain ⟨G, a, b, -, d⟩ := C17_start (iseed + (lxOfCoord c g.L : Int)) (by omega) (by omega) (fun _ => 0)
  refine ⟨G, a, a, b, ?_⟩
  rw [d]; omega

/-- C19: once started from a seed, the generator of each global site is the same for any two grids of ranks, and it is a valid one (so
also the global generator is) -/
theorem C19_seeding_independent_of_grid (g1 g2 : Geo) (ok1 : g1.Ok) (ok2 : g2.Ok) (hL : g1.L = g2.L)
    (hV : (g1.glbVol : Int) < randMax) (seed : Int) (h1 : -2 ^ 31 ≤ seed) (h2 : seed < 2 ^ 31 - 1) (c : Coords) (hc : ∀ mu, c mu < g1.L mu) :
    ∃ glb f1 f2 G, startLoc g1 (rankOf g1 c) seed = some (glb, f1) ∧ startLoc g2 (rankOf g2 c) seed = some (glb, f2) ∧
      f1 (siteOf g1 c) = some G ∧ f2 (siteOf g2 c) = some G ∧ Valid G := by
  obtain ⟨glb, iseed, a, b, e⟩ := startLoc_spec g1.L hV seed h1 h2
  obtain ⟨G, e1, e1', v, -⟩ := locGen_spec g1 ok1 iseed a b c hc
  obtain ⟨G', e2, e2', -, -⟩ := locGen_spec g2 ok2 iseed a (by rw [← hL]; exact b) c (by rw [← hL]; exact hc)
  rw [← hL, e1'] at e2'
  cases e2'
  exact ⟨glb, _, _, G, e g1 _ rfl, e g2 _ hL.symm, e1, e2, v⟩

/-- C19: different sites get different generators, even when they are on different ranks -/
theorem C19_sites_differ (g : Geo) (ok : g.Ok) (hV : (g.glbVol : Int) < randMax) (seed : Int) (h1 : -2 ^ 31 ≤ seed) (h2 : seed < 2 ^ 31 - 1)
    (c c' : Coords) (hc : ∀ mu, c mu < g.L mu) (hc' : ∀ mu, c' mu < g.L mu) (hne : c ≠ c') :
    ∃ glb f f' G G', startLoc g (rankOf g c) seed = some (glb, f) ∧ startLoc g (rankOf g c') seed = some (glb, f') ∧
      f (siteOf g c) = some G ∧ f' (siteOf g c') = some G' ∧ G ≠ G' := by
  obtain ⟨glb, iseed, a, b, e⟩ := startLoc_spec g.L hV seed h1 h2
  obtain ⟨G, e1, -, -, d1⟩ := locGen_spec g ok iseed a b c hc
  obtain ⟨G', e2, -, -, d2⟩ := locGen_spec g ok iseed a b c' hc'
  refine ⟨glb, _, _, G, G', e g _ rfl, e g _ rfl, e1, e2, fun h => hne ?_⟩
  rw [h, d2] at d1
  exact lxOfCoord_inj hc hc' (by omega)

/-! ### Sources -/

theorem siteLoop_spec {α : Type} (K : SiteKernel α) (coord : Nat → Option Coords) (sites : List Nat) (hn : sites.Nodup) (s s' : LocState α)
    (h : sites.foldlM (siteStep K coord) s = some s') :
    (∀ i, i ∉ sites → s'.gen i = s.gen i ∧ s'.field i = s.field i) ∧
    (∀ i, i ∈ sites → ∃ c G v G', coord i = some c ∧ s.gen i = some G ∧ K c G = some (v, G') ∧ s'.gen i = some G' ∧ s'.field i = v.getD (s.field i)) := by
  induction sites generalizing s with
  | nil =>
    simp only [List.foldlM_nil, Option.pure_def, Option.some.injEq] at h
    subst h
    exact ⟨fun i _ => ⟨rfl, rfl⟩, fun i hi => by cases hi⟩
  | cons a l ih =>
    rw [List.foldlM_cons, Option.bind_eq_bind, Option.bind_eq_some_iff] at h
    obtain ⟨t, ht, hl⟩ := h
    obtain ⟨hal, hnl⟩ := List.nodup_cons.1 hn
    obtain ⟨i1, i2⟩ := ih hnl t hl
    unfold siteStep at ht
    cases hc : coord a with
    | none => rw [hc] at ht; cases ht
    | some c =>
      cases hg : s.gen a with
      | none => simp only [hc, hg, Option.bind_eq_bind, Option.bind_some] at ht; cases ht
      | some G =>
        cases hk : K c G with
        | none => simp only [hc, hg, hk, Option.bind_eq_bind, Option.bind_some] at ht; cases ht
        | some p =>
          obtain ⟨v, G'⟩ := p
          simp only [hc, hg, hk, Option.bind_eq_bind, Option.bind_some, Option.some.injEq] at ht
          subst ht
          have hf : ∀ i, i ≠ a → (match v with | none => s.field | some b => Function.update s.field a b) i = s.field i := by
            intro i hi
            cases v with
            | none => rfl
            | some b => exact Function.update_of_ne hi _ _
          have hfa : (match v with | none => s.field | some b => Function.update s.field a b) a = v.getD (s.field a) := by
            cases v with
            | none => rfl
            | some b => exact Function.update_self _ _ _
          constructor
          · intro i hi
            rw [List.mem_cons, not_or] at hi
            obtain ⟨x, y⟩ := i1 i hi.2
            refine ⟨x.trans (Function.update_of_ne hi.1 _ _), y.trans (hf i hi.1)⟩
          · intro i hi
            rcases List.mem_cons.1 hi with h | h
            · subst h
              obtain ⟨x, y⟩ := i1 i hal
              exact ⟨c, G, v, G', hc, hg, hk, x.trans (Function.update_self _ _ _), y.trans hfa⟩
            · have hia : i ≠ a := fun h' => hal (h' ▸ h)
              obtain ⟨c2, G2, v2, G2', q1, q2, q3, q4, q5⟩ := i2 i h
              refine ⟨c2, G2, v2, G2', q1, ?_, q3, q4, ?_⟩
              · exact (Function.update_of_ne hia _ _ : Function.update s.gen a (some G') i = s.gen i) ▸ q2
              · rw [q5]; congr 1; exact hf i hia

/-- C19: whatever sequence of sources is generated (with any kernels acting on a site through its global coordinates and its generator
only, in any order of the local sites), at each global site two runs on two different grids of ranks started from the same seed give the
same values, in all the sources -/
theorem C19_sources_independent_of_grid {α : Type} (zero : α) (g1 g2 : Geo) (ok1 : g1.Ok) (ok2 : g2.Ok) (hL : g1.L = g2.L)
    (hV : (g1.glbVol : Int) < randMax) (seed : Int) (h1 : -2 ^ 31 ≤ seed) (h2 : seed < 2 ^ 31 - 1) (c : Coords) (hc : ∀ mu, c mu < g1.L mu)
    (s1 s2 : List Nat) (p1 : s1.Perm (List.range g1.locVol)) (p2 : s2.Perm (List.range g2.locVol)) (Ks : List (SiteKernel α))
    (glb1 glb2 : Gen) (f1 f2 f1' f2' : Nat → Option Gen) (l1 l2 : List (Nat → α))
    (e1 : startLoc g1 (rankOf g1 c) seed = some (glb1, f1)) (e2 : startLoc g2 (rankOf g2 c) seed = some (glb2, f2))
    (r1 : history zero (glbCoordOfLoclx g1 (rankOf g1 c)) s1 Ks f1 = some (l1, f1'))
    (r2 : history zero (glbCoordOfLoclx g2 (rankOf g2 c)) s2 Ks f2 = some (l2, f2')) :
    l1.map (fun fld => fld (siteOf g1 c)) = l2.map (fun fld => fld (siteOf g2 c)) := by
  obtain ⟨-, k1, -, m1, -⟩ := Nissa.Lx.C02_rank_and_loclx g1 ok1 c hc
  obtain ⟨-, k2, -, m2, -⟩ := Nissa.Lx.C02_rank_and_loclx g2 ok2 c (by rw [← hL]; exact hc)
  have hi1 : siteOf g1 c ∈ s1 := p1.symm.subset (List.mem_range.2 k1)
  have hi2 : siteOf g2 c ∈ s2 := p2.symm.subset (List.mem_range.2 k2)
  have hm1 : glbCoordOfLoclx g1 (rankOf g1 c) (siteOf g1 c) = some c := m1
  have hm2 : glbCoordOfLoclx g2 (rankOf g2 c) (siteOf g2 c) = some c := m2
  have n1 : s1.Nodup := p1.symm.nodup List.nodup_range
  have n2 : s2.Nodup := p2.symm.nodup List.nodup_range
  have hG : f1 (siteOf g1 c) = f2 (siteOf g2 c) := by
    obtain ⟨glb, x1, x2, G, a1, a2, a3, a4, -⟩ := C19_seeding_independent_of_grid g1 g2 ok1 ok2 hL hV seed h1 h2 c hc
    rw [e1] at a1; cases a1
    rw [e2] at a2; cases a2
    rw [a3, a4]
  clear e1 e2
  generalize glbCoordOfLoclx g1 (rankOf g1 c) = co1 at *
  generalize glbCoordOfLoclx g2 (rankOf g2 c) = co2 at *
  induction Ks generalizing f1 f2 l1 l2 with
  | nil =>
    simp only [history, Option.some.injEq, Prod.mk.injEq] at r1 r2
    rw [← r1.1, ← r2.1]; rfl
  | cons K Ks ih =>
    simp only [history, Option.bind_eq_bind] at r1 r2
    obtain ⟨t1, a1, b1⟩ := Option.bind_eq_some_iff.1 r1
    obtain ⟨t2, a2, b2⟩ := Option.bind_eq_some_iff.1 r2
    obtain ⟨⟨q1, w1⟩, a1', b1'⟩ := Option.bind_eq_some_iff.1 b1
    obtain ⟨⟨q2, w2⟩, a2', b2'⟩ := Option.bind_eq_some_iff.1 b2
    simp only [Option.some.injEq, Prod.mk.injEq] at b1' b2'
    obtain ⟨-, sp1⟩ := siteLoop_spec K co1 s1 n1 _ _ a1
    obtain ⟨-, sp2⟩ := siteLoop_spec K co2 s2 n2 _ _ a2
    obtain ⟨c1, G1, v1, G1', x1, x2, x3, x4, x5⟩ := sp1 _ hi1
    obtain ⟨c2, G2, v2, G2', y1, y2, y3, y4, y5⟩ := sp2 _ hi2
    simp only at x2 x5 y2 y5
    rw [hm1] at x1; cases x1
    rw [hm2] at y1; cases y1
    rw [hG, y2] at x2; cases x2
    rw [y3] at x3; cases x3
    rw [← b1'.1, ← b2'.1, List.map_cons, List.map_cons, x5, y5]
    rw [ih t1.gen t2.gen q1 q2 (by rw [x4, y4]) (by rw [a1', b1'.2]) (by rw [a2', b2'.2])]

/-- the Z2 and Z4 draws succeed from each valid generator, give +-1 components and leave a valid generator -/
theorem pmOne_spec (g : Gen) (hv : Valid g) : ∃ a g', pmOne g = some (a, g') ∧ Valid g' ∧ (a = 1 ∨ a = -1) := by
  obtain ⟨u, g', e, hv', -⟩ := C17_unif_range g hv 0 1 (by norm_num)
  refine ⟨if u > 1 / 2 then 1 else -1, g', by simp only [pmOne, e, Option.bind_eq_bind, Option.bind_some], hv', ?_⟩
  split
  · exact Or.inl rfl
  · exact Or.inr rfl

theorem C19_Z4_total (g : Gen) (hv : Valid g) : ∃ a b g', compZ4 g = some ((a, b), g') ∧ Valid g' ∧ (a = 1 ∨ a = -1) ∧ (b = 1 ∨ b = -1) := by
  obtain ⟨a, g1, e1, v1, ha⟩ := pmOne_spec g hv
  obtain ⟨b, g2, e2, v2, hb⟩ := pmOne_spec g1 v1
  exact ⟨a, b, g2, by simp only [compZ4, e1, e2, Option.bind_eq_bind, Option.bind_some], v2, ha, hb⟩

/-- C19: a Z4 wall source can be generated on each rank of each grid, from the generators of that rank (so the hypotheses of the previous
theorem are met), and it is nonzero only on the time slice of the wall -/
theorem C19_wall_source (g : Geo) (ok : g.Ok) (rk : Nat) (hr : rk < g.nranks) (hV : (g.glbVol : Int) < randMax) (seed : Int) (h1 : -2 ^ 31 ≤ seed) (h2 : seed < 2 ^ 31 - 1)
    (n : Nat) (dir : Dir) (twall : Int) :
    ∃ glb f fld f', startLoc g (coordOfLx rk g.R) seed = some (glb, f) ∧
      history [] (glbCoordOfLoclx g (coordOfLx rk g.R)) (List.range g.locVol) [undilutedKernel compZ4 n dir twall] f = some ([fld], f') ∧
      ∀ i, i < g.locVol → ∃ c, glbCoordOfLoclx g (coordOfLx rk g.R) i = some c ∧
        (if (c dir : Int) = twall ∨ twall < 0 then (fld i).length = n ∧ ∀ p ∈ fld i, (p.1 = 1 ∨ p.1 = -1) ∧ (p.2 = 1 ∨ p.2 = -1) else fld i = []) := by
  obtain ⟨glb, iseed, a, b, e⟩ := startLoc_spec g.L hV seed h1 h2
  -- every local site is the image of a global one
  have hsite : ∀ i, i < g.locVol → ∃ c G, glbCoordOfLoclx g (coordOfLx rk g.R) i = some c ∧ locGen g (coordOfLx rk g.R) iseed i = some G ∧ Valid G := by
    intro i hi
    obtain ⟨c, ⟨hc, hp⟩, -⟩ := Nissa.Lx.C02_bijective g ok rk i hr hi
    obtain ⟨-, -, -, m, -⟩ := Nissa.Lx.C02_rank_and_loclx g ok c hc
    obtain ⟨G, e1, -, v, -⟩ := locGen_spec g ok iseed a b c hc
    unfold rankOf siteOf at e1
    rw [hp] at m e1
    exact ⟨c, G, m, e1, v⟩
  have hdraw : ∀ n G, Valid G → ∃ l G', drawN compZ4 n G = some (l, G') ∧ Valid G' ∧ l.length = n ∧ ∀ p ∈ l, (p.1 = 1 ∨ p.1 = -1) ∧ (p.2 = 1 ∨ p.2 = -1) := by
    intro n
    induction n with
    | zero => intro G hv; exact ⟨[], G, rfl, hv, rfl, fun p hp => by cases hp⟩
    | succ n ih =>
      intro G hv
      obtain ⟨x, y, G1, e1, v1, hx, hy⟩ := C19_Z4_total G hv
      obtain ⟨l, G2, e2, v2, hl, hp⟩ := ih G1 v1
      refine ⟨(x, y) :: l, G2, by simp only [drawN, e1, e2, Option.bind_eq_bind, Option.bind_some], v2, by simp [hl], fun p hp' => ?_⟩
      rcases List.mem_cons.1 hp' with h | h
      · subst h; exact ⟨hx, hy⟩
      · exact hp p h
  have hker : ∀ c G, Valid G → ∃ v G', undilutedKernel compZ4 n dir twall c G = some (v, G') ∧
      (if (c dir : Int) = twall ∨ twall < 0 then (v.getD []).length = n ∧ ∀ p ∈ v.getD [], (p.1 = 1 ∨ p.1 = -1) ∧ (p.2 = 1 ∨ p.2 = -1) else v.getD [] = []) := by
    intro c G hv
    unfold undilutedKernel
    split
    · obtain ⟨l, G', e1, -, hl, hp⟩ := hdraw n G hv
      exact ⟨some l, G', by simp only [e1, Option.bind_eq_bind, Option.bind_some], hl, hp⟩
    · exact ⟨none, G, rfl, rfl⟩
  -- the loop does not fail
  have hloop : ∀ (l : List Nat), l.Nodup → (∀ i ∈ l, i < g.locVol) → ∀ (s : LocState (List (Int × Int))),
      (∀ i ∈ l, s.gen i = locGen g (coordOfLx rk g.R) iseed i) →
      ∃ s', l.foldlM (siteStep (undilutedKernel compZ4 n dir twall) (glbCoordOfLoclx g (coordOfLx rk g.R))) s = some s' := by
    intro l
    induction l with
    | nil => intro _ _ s _; exact ⟨s, rfl⟩
    | cons i l ih =>
      intro hn hl s hs
      obtain ⟨hil, hnl⟩ := List.nodup_cons.1 hn
      obtain ⟨c, G, q1, q2, q3⟩ := hsite i (hl i (by simp))
      obtain ⟨v, G', q4, -⟩ := hker c G q3
      rw [List.foldlM_cons]
      unfold siteStep
      simp only [q1, hs i (by simp), q2, q4, Option.bind_eq_bind, Option.bind_some]
      exact ih hnl (fun k hk => hl k (by simp [hk])) _ (fun k hk => by
        rw [← hs k (by simp [hk])]
        exact Function.update_of_ne (fun h : k = i => hil (h ▸ hk)) _ _)
  obtain ⟨s', hs'⟩ := hloop (List.range g.locVol) List.nodup_range (fun i hi => List.mem_range.1 hi) ⟨locGen g (coordOfLx rk g.R) iseed, fun _ => []⟩ (fun i _ => rfl)
  refine ⟨glb, _, s'.field, s'.gen, e g _ rfl, by simp only [history, siteLoop, hs', Option.bind_eq_bind, Option.bind_some], fun i hi => ?_⟩
  obtain ⟨-, sp⟩ := siteLoop_spec _ _ _ List.nodup_range _ _ hs'
  obtain ⟨c, G, v, G', x1, x2, x3, x4, x5⟩ := sp i (List.mem_range.2 hi)
  refine ⟨c, x1, ?_⟩
  obtain ⟨c', G'', q1, q2, q3⟩ := hsite i hi
  rw [x1] at q1; cases q1
  simp only at x2 x5
  rw [q2] at x2; cases x2
  obtain ⟨v', G'', q4, q5⟩ := hker c G q3
  rw [x3] at q4; cases q4
  rw [x5]; exact q5

example : (⟨![8, 4, 4, 4], ![2, 2, 1, 1]⟩ : Geo).Ok ∧ (⟨![8, 4, 4, 4], ![4, 1, 1, 1]⟩ : Geo).Ok ∧
    (((⟨![8, 4, 4, 4], ![2, 2, 1, 1]⟩ : Geo).glbVol : Nat) : Int) < randMax := by decide

end Nissa.Ran2
