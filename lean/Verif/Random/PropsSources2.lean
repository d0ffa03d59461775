import Verif.Random.PropsSources

/-!
# C19, C17: any source; the diluted source; the random coordinate

The statement about the Z4 wall source is generalized to every kernel that draws a bounded set of numbers for each site, and specialized to
the colour-spin diluted source, for Z2 and Z4 noise.
-/
set_option linter.all false

namespace Nissa.Ran2
open Nissa.Lx (Coords Geo Dir getLoclxAndRankOfCoords coordOfLx lxOfCoord glbCoordOfLoclx glblxOfLoclx)

/-- C19: if the body of the site loop does not fail on a valid generator and its value (the reset one where the site is not touched) meets a condition `P` on
the global coordinates, then a source can be generated on every rank of every grid, from the generators of that rank, and each local site of
the field meets the condition on its global coordinates -/
theorem C19_any_source {α : Type} (zero : α) (K : SiteKernel α) (P : Coords → α → Prop)
    (hK : ∀ c G, Valid G → ∃ v G', K c G = some (v, G') ∧ P c (v.getD zero))
    (g : Geo) (ok : g.Ok) (rk : Nat) (hr : rk < g.nranks) (hV : (g.glbVol : Int) < randMax) (seed : Int) (h1 : -2 ^ 31 ≤ seed) (h2 : seed < 2 ^ 31 - 1) :
    ∃ glb f fld f', startLoc g (coordOfLx rk g.R) seed = some (glb, f) ∧
      history zero (glbCoordOfLoclx g (coordOfLx rk g.R)) (List.range g.locVol) [K] f = some ([fld], f') ∧
      ∀ i, i < g.locVol → ∃ c, glbCoordOfLoclx g (coordOfLx rk g.R) i = some c ∧ P c (fld i) := by
  obtain ⟨glb, iseed, a, b, e⟩ := startLoc_spec g.L hV seed h1 h2
  have hsite : ∀ i, i < g.locVol → ∃ c G, glbCoordOfLoclx g (coordOfLx rk g.R) i = some c ∧ locGen g (coordOfLx rk g.R) iseed i = some G ∧ Valid G := by
    intro i hi
    obtain ⟨c, ⟨hc, hp⟩, -⟩ := Nissa.Lx.C02_bijective g ok rk i hr hi
    obtain ⟨-, -, -, m, -⟩ := Nissa.Lx.C02_rank_and_loclx g ok c hc
    obtain ⟨G, e1, -, v, -⟩ := locGen_spec g ok iseed a b c hc
    unfold rankOf siteOf at e1
    rw [hp] at m e1
    exact ⟨c, G, m, e1, v⟩
  have hloop : ∀ (l : List Nat), l.Nodup → (∀ i ∈ l, i < g.locVol) → ∀ (s : LocState α),
      (∀ i ∈ l, s.gen i = locGen g (coordOfLx rk g.R) iseed i) →
      ∃ s', l.foldlM (siteStep K (glbCoordOfLoclx g (coordOfLx rk g.R))) s = some s' := by
    intro l
    induction l with
    | nil => intro _ _ s _; exact ⟨s, rfl⟩
    | cons i l ih =>
      intro hn hl s hs
      obtain ⟨hil, hnl⟩ := List.nodup_cons.1 hn
      obtain ⟨c, G, q1, q2, q3⟩ := hsite i (hl i (by simp))
      obtain ⟨v, G', q4, -⟩ := hK c G q3
      rw [List.foldlM_cons]
      unfold siteStep
      simp only [q1, hs i (by simp), q2, q4, Option.bind_eq_bind, Option.bind_some]
      exact ih hnl (fun k hk => hl k (by simp [hk])) _ (fun k hk => by
        rw [← hs k (by simp [hk])]
        exact Function.update_of_ne (fun h : k = i => hil (h ▸ hk)) _ _)
  obtain ⟨s', hs'⟩ := hloop (List.range g.locVol) List.nodup_range (fun i hi => List.mem_range.1 hi) ⟨locGen g (coordOfLx rk g.R) iseed, fun _ => zero⟩ (fun i _ => rfl)
  refine ⟨glb, _, s'.field, s'.gen, e g _ rfl, by simp only [history, siteLoop, hs', Option.bind_eq_bind, Option.bind_some], fun i hi => ?_⟩
  obtain ⟨-, sp⟩ := siteLoop_spec _ _ _ List.nodup_range _ _ hs'
  obtain ⟨c, G, v, G', x1, x2, x3, x4, x5⟩ := sp i (List.mem_range.2 hi)
  refine ⟨c, x1, ?_⟩
  obtain ⟨c', G'', q1, q2, q3⟩ := hsite i hi
  rw [x1] at q1; cases q1
  simp only at x2 x5
  rw [q2] at x2; cases x2
  obtain ⟨v', G'', q4, q5⟩ := hK c G q3
  rw [x3] at q4; cases q4
  have : s'.field i = v.getD zero := by
    rw [x5]
    all_goals (cases v <;> rfl)
  rw [this]; exact q5

theorem C19_Z2_total (g : Gen) (hv : Valid g) : ∃ a g', compZ2 g = some ((a, 0), g') ∧ Valid g' ∧ (a = 1 ∨ a = -1) := by
  obtain ⟨a, g1, e1, v1, ha⟩ := pmOne_spec g hv
  exact ⟨a, g1, by simp only [compZ2, e1, Option.bind_eq_bind, Option.bind_some], v1, ha⟩

/-- a matrix in colour and spin proportional to the identity, with a factor that meets `Q` -/
def DiagOf (Q : Int × Int → Prop) (M : Fin 12 → Fin 12 → Int × Int) : Prop :=
  ∃ z, Q z ∧ ∀ i j, M i j = if i = j then z else (0, 0)

/-- C19: the colour-spin diluted source with Z2 noise: on the time slice of the wall (everywhere if the wall is negative) each site has +-1 on
the whole colour-spin diagonal, the same for the 12 entries, and 0 elsewhere; the other sites are 0 -/
theorem C19_diluted_source_Z2 (g : Geo) (ok : g.Ok) (rk : Nat) (hr : rk < g.nranks) (hV : (g.glbVol : Int) < randMax) (seed : Int) (h1 : -2 ^ 31 ≤ seed)
    (h2 : seed < 2 ^ 31 - 1) (twall : Int) :
    ∃ glb f fld f', startLoc g (coordOfLx rk g.R) seed = some (glb, f) ∧
      history (fun _ _ => ((0, 0) : Int × Int)) (glbCoordOfLoclx g (coordOfLx rk g.R)) (List.range g.locVol) [dilutedKernel (0, 0) compZ2 twall] f = some ([fld], f') ∧
      ∀ i, i < g.locVol → ∃ c, glbCoordOfLoclx g (coordOfLx rk g.R) i = some c ∧
        (if (c 0 : Int) = twall ∨ twall < 0 then DiagOf (fun z => z = (1, 0) ∨ z = (-1, 0)) (fld i) else ∀ p q, fld i p q = (0, 0)) := by
  apply C19_any_source (α := Fin 12 → Fin 12 → Int × Int) (fun _ _ => (0, 0)) (dilutedKernel (0, 0) compZ2 twall)
    (fun c M => if (c 0 : Int) = twall ∨ twall < 0 then DiagOf (fun z => z = (1, 0) ∨ z = (-1, 0)) M else ∀ p q, M p q = (0, 0)) _ g ok rk hr hV seed h1 h2
  intro c G hv
  unfold dilutedKernel
  split
  · obtain ⟨x, G', e, -, hx⟩ := C19_Z2_total G hv
    refine ⟨some (fun i j => if i = j then (x, 0) else (0, 0)), G', by simp only [e, Option.bind_eq_bind, Option.bind_some], (x, 0), ?_, fun i j => rfl⟩
    rcases hx with h | h <;> simp [h]
  · exact ⟨none, G, rfl, fun _ _ => rfl⟩

/-- C19: as above with Z4 noise (the numbers times sqrt 2): both components are +-1 -/
theorem C19_diluted_source_Z4 (g : Geo) (ok : g.Ok) (rk : Nat) (hr : rk < g.nranks) (hV : (g.glbVol : Int) < randMax) (seed : Int) (h1 : -2 ^ 31 ≤ seed)
    (h2 : seed < 2 ^ 31 - 1) (twall : Int) :
    ∃ glb f fld f', startLoc g (coordOfLx rk g.R) seed = some (glb, f) ∧
      history (fun _ _ => ((0, 0) : Int × Int)) (glbCoordOfLoclx g (coordOfLx rk g.R)) (List.range g.locVol) [dilutedKernel (0, 0) compZ4 twall] f = some ([fld], f') ∧
      ∀ i, i < g.locVol → ∃ c, glbCoordOfLoclx g (coordOfLx rk g.R) i = some c ∧
        (if (c 0 : Int) = twall ∨ twall < 0 then DiagOf (fun z => (z.1 = 1 ∨ z.1 = -1) ∧ (z.2 = 1 ∨ z.2 = -1)) (fld i) else ∀ p q, fld i p q = (0, 0)) := by
  apply C19_any_source (α := Fin 12 → Fin 12 → Int × Int) (fun _ _ => (0, 0)) (dilutedKernel (0, 0) compZ4 twall)
    (fun c M => if (c 0 : Int) = twall ∨ twall < 0 then DiagOf (fun z => (z.1 = 1 ∨ z.1 = -1) ∧ (z.2 = 1 ∨ z.2 = -1)) M else ∀ p q, M p q = (0, 0)) _ g ok rk hr hV seed h1 h2
  intro c G hv
  unfold dilutedKernel
  split
  · obtain ⟨x, y, G', e, -, hx, hy⟩ := C19_Z4_total G hv
    exact ⟨some (fun i j => if i = j then (x, y) else (0, 0)), G', by simp only [e, Option.bind_eq_bind, Option.bind_some], (x, y), ⟨hx, hy⟩, fun i j => rfl⟩
  · exact ⟨none, G, rfl, fun _ _ => rfl⟩

/-- C17: a random coordinate is drawn from each valid generator, and lies in the lattice in all the directions -/
theorem C17_random_coord (L : Coords) (hL : ∀ mu, 0 < L mu) (dirs : List Dir) (g : Gen) (hv : Valid g) :
    ∃ l g', randomCoord L dirs g = some (l, g') ∧ Valid g' ∧ l.length = dirs.length ∧
      ∀ (k : ℕ) (mu : Dir) (x : Int), dirs[k]? = some mu → l[k]? = some x → 0 ≤ x ∧ x < L mu := by
  induction dirs generalizing g with
  | nil => exact ⟨[], g, rfl, hv, rfl, fun k mu x h => by simp at h⟩
  | cons mu l ih =>
    have hpos : (0 : ℚ) < (L mu : ℚ) := by exact_mod_cast hL mu
    obtain ⟨u, g1, e1, v1, hu0, hu1⟩ := C17_unif_range g hv 0 (L mu) hpos
    obtain ⟨r, g2, e2, v2, hlen, hr⟩ := ih g1 v1
    refine ⟨truncZ u :: r, g2, by simp only [randomCoord, e1, e2, Option.bind_eq_bind, Option.bind_some], v2, by simp [hlen], ?_⟩
    intro k nu x hk hx
    cases k with
    | zero =>
      simp only [List.getElem?_cons_zero, Option.some.injEq] at hk hx
      subst hk; subst hx
      unfold truncZ
      rw [if_pos hu0]
      exact ⟨Int.floor_nonneg.2 hu0, Int.floor_lt.2 (by exact_mod_cast hu1)⟩
    | succ k =>
      simp only [List.getElem?_cons_succ] at hk hx
      exact hr k nu x hk hx

example : ∃ g, start 1234 = some g ∧ ∃ l g', randomCoord ![8, 4, 4, 4] [0, 1, 2, 3] g = some (l, g') ∧ l.length = 4 := by
  obtain ⟨g, e, hv, -⟩ := C17_start 1234 (by decide) (by decide) (fun _ => 0)
  obtain ⟨l, g', e1, -, h, -⟩ := C17_random_coord ![8, 4, 4, 4] (by decide) [0, 1, 2, 3] g hv
  exact ⟨g, e, l, g', e1, h⟩

/-- C19: what the field held before the call does not matter: two calls with the same generators, on fields with different contents, give the
same field, and the places not touched (those of the other times, for a wall) hold the reset value -/
theorem C19_source_reset {α : Type} (zero : α) (K : SiteKernel α) (coord : Nat → Option Coords) (sites : List Nat) (hn : sites.Nodup) (gen : Nat → Option Gen)
    (old1 old2 : Nat → α) (s1 s2 : LocState α) (h1 : siteLoop zero K coord sites ⟨gen, old1⟩ = some s1) (h2 : siteLoop zero K coord sites ⟨gen, old2⟩ = some s2) :
    s1.field = s2.field ∧ (∀ i, i ∉ sites → s1.field i = zero) ∧
      ∀ i c G G', i ∈ sites → coord i = some c → gen i = some G → K c G = some (none, G') → s1.field i = zero := by
  have e1 : sites.foldlM (siteStep K coord) ⟨gen, fun _ => zero⟩ = some s1 := h1
  have e2 : sites.foldlM (siteStep K coord) ⟨gen, fun _ => zero⟩ = some s2 := h2
  obtain ⟨a, b⟩ := siteLoop_spec K coord sites hn _ _ e1
  refine ⟨by rw [e1] at e2; rw [Option.some.inj e2], fun i hi => (a i hi).2, fun i c G G' hi hc hg hk => ?_⟩
  obtain ⟨c2, G2, v, G2', q1, q2, q3, -, q5⟩ := b i hi
  rw [q1, Option.some.injEq] at hc
  have q2' : gen i = some G2 := q2
  rw [q2', Option.some.injEq] at hg
  subst hc; subst hg
  rw [hk, Option.some.injEq, Prod.mk.injEq] at q3
  rw [q5, ← q3.1]; rfl

/-- the hypotheses of `C19_source_reset` are met, with previous contents that are not zero -/
example : ∃ s1 s2, siteLoop (0 : Nat) (fun c g => some (if c 0 = 1 then some 5 else none, g)) (fun i => some (fun _ => i)) [0, 1]
      ⟨fun _ => some ⟨0, 0, fun _ => 0, 0⟩, fun _ => 7⟩ = some s1 ∧
    siteLoop (0 : Nat) (fun c g => some (if c 0 = 1 then some 5 else none, g)) (fun i => some (fun _ => i)) [0, 1]
      ⟨fun _ => some ⟨0, 0, fun _ => 0, 0⟩, fun _ => 9⟩ = some s2 ∧ s1.field 1 = 5 := ⟨_, _, rfl, rfl, rfl⟩

end Nissa.Ran2
