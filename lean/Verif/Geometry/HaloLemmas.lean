/- Helper lemmas on the halo and edges exchange. -/
import Verif.Geometry.Halo
import Verif.Geometry.NeighLemmas

set_option linter.all false
namespace Nissa.Lx
open Geo
variable {g : Geo}

/-- the own surface site next to a border site -/
def pull (g : Geo) (x : ICoords) (mu : Dir) : ICoords := Function.update x mu (if x mu = -1 then 0 else (g.loc mu : Int) - 1)

section
variable (ok : g.Ok)
include ok

theorem pull_inside {x : ICoords} {mu : Dir} (h : OneOut g x mu) : ∀ nu, Inside g (pull g x mu) nu := by
  intro nu
  have := ok.loc_ge mu
  by_cases hm : nu = mu
  · subst hm; unfold Inside pull; rw [Function.update_self]; split <;> omega
  · have := h.2 nu hm; unfold Inside pull at *; rw [Function.update_of_ne hm]; exact this

theorem shift_pull {x : ICoords} {mu : Dir} (h : Out g x mu) :
    shift (pull g x mu) mu (if x mu = -1 then -1 else 1) = x := by
  funext nu
  have := loc_pos ok mu
  by_cases hm : nu = mu
  · subst hm; unfold shift pull; rw [Function.update_self, Function.update_self]
    rcases h.2 with h | h <;> split <;> omega
  · unfold shift pull; rw [Function.update_of_ne hm, Function.update_of_ne hm]

/-- a step out of the box from a surface site -/
theorem step_out {z : ICoords} (hz : ∀ nu, Inside g z nu) {mu : Dir} (hp : 1 < g.R mu) {d : Int}
    (hd : (z mu = 0 ∧ d = -1) ∨ (z mu = (g.loc mu : Int) - 1 ∧ d = 1)) : OneOut g (shift z mu d) mu := by
  refine ⟨⟨hp, ?_⟩, fun nu hn => ?_⟩
  · unfold shift; rw [Function.update_self]; rcases hd with ⟨a, b⟩ | ⟨a, b⟩ <;> omega
  · have := hz nu; unfold Inside shift at *; rw [Function.update_of_ne hn]; exact this

theorem bordlxOfSurflx_eq (r : Coords) {z : ICoords} (hz : ∀ nu, Inside g z nu) (mu : Dir) :
    bordlxOfSurflx g r (idx g z) mu =
      if ¬ 1 < g.R mu then some (-1)
      else if z mu = 0 then some ((idx g (shift z mu (-1)) : Int) - g.locVol)
      else if z mu = (g.loc mu : Int) - 1 then some ((idx g (shift z mu 1) : Int) - g.locVol)
      else some (-1) := by
  unfold bordlxOfSurflx
  have hne : nOut g z ≤ 2 := by rw [nOut_inside hz]; omega
  have hl := ok.loc_ge mu
  by_cases hp : 1 < g.R mu
  · rw [(isPar_iff mu).2 hp]
    simp only [Bool.not_true, Bool.false_eq_true, if_false, hp, not_true_eq_false]
    rw [if_neg (by omega), locCoord_table ok hz]
    simp only
    by_cases h0 : z mu = 0
    · rw [if_pos h0, if_pos h0, neigh_eq ok r (ext_inside hz) hne]
      have := step_out ok hz hp (.inl ⟨h0, rfl⟩)
      rw [idx_spec ok (ext_oneOut this) (by rw [nOut_oneOut this]; omega)]; rfl
    · rw [if_neg h0, if_neg h0]
      by_cases h1 : z mu = (g.loc mu : Int) - 1
      · rw [if_pos h1, if_pos h1, neigh_eq ok r (ext_inside hz) hne]
        have := step_out ok hz hp (.inr ⟨h1, rfl⟩)
        rw [idx_spec ok (ext_oneOut this) (by rw [nOut_oneOut this]; omega)]; rfl
      · rw [if_neg h1, if_neg h1]
  · have : g.isPar mu = false := by simpa [Geo.isPar] using hp
    rw [this]; simp [hp]

theorem surf_of_bord (r : Coords) {x : ICoords} {mu : Dir} (h : OneOut g x mu) :
    surflxOfBordlx g r (idx g x - g.locVol) = some (idx g (pull g x mu)) := by
  have hpi := pull_inside ok h
  have hr := idx_bord_range ok h
  have hl := ok.loc_ge mu
  unfold surflxOfBordlx
  refine (writeLoop_spec _ _ _ _ _).1 _ ⟨(idx g (pull g x mu), mu), ?_, ?_⟩ ?_
  · rw [List.mem_flatMap]
    exact ⟨_, List.mem_range.2 (idx_loc_lt ok hpi), List.mem_map.2 ⟨mu, mem_dirs mu, rfl⟩⟩
  · simp only
    rw [bordlxOfSurflx_eq ok r hpi, if_neg (by simpa using h.1.1)]
    have hsp := shift_pull ok h.1
    by_cases hx : x mu = -1
    · rw [if_pos (by unfold pull; rw [Function.update_self, if_pos hx])]
      rw [if_pos hx] at hsp
      rw [hsp]; unfold okIdx; simp only; rw [if_pos (by omega)]; congr 1; omega
    · rw [if_neg hx] at hsp
      rw [if_neg (by unfold pull; rw [Function.update_self, if_neg hx]; omega),
        if_pos (by unfold pull; rw [Function.update_self, if_neg hx]), hsp]
      unfold okIdx; simp only; rw [if_pos (by omega)]; congr 1; omega
  · rintro ⟨l, nu⟩ hm hk
    rw [List.mem_flatMap] at hm
    obtain ⟨l', hl', hm⟩ := hm
    obtain ⟨nu', _, he⟩ := List.mem_map.1 hm
    injection he with e1 e2; subst e1; subst e2
    obtain ⟨z, hz, rfl⟩ := idx_surj_loc ok (List.mem_range.1 hl')
    simp only at hk ⊢
    rw [bordlxOfSurflx_eq ok r hz] at hk
    by_cases hp : 1 < g.R nu'
    · rw [if_neg (by simpa using hp)] at hk
      have fin : ∀ d : Int, (z nu' = 0 ∧ d = -1) ∨ (z nu' = (g.loc nu' : Int) - 1 ∧ d = 1) →
          idx g (shift z nu' d) = idx g x → idx g z = idx g (pull g x mu) := by
        intro d hd he
        have ho := step_out ok hz hp hd
        have hs := idx_inj ok (ext_oneOut ho) (by rw [nOut_oneOut ho]; omega) (ext_oneOut h) (by rw [nOut_oneOut h]; omega) he
        have hmn : nu' = mu := by
          by_contra hn
          exact (hs ▸ ho.1).not_inside (h.2 nu' hn)
        subst hmn
        congr 1
        funext rho
        by_cases hr : rho = nu'
        · subst hr
          have h1 : x rho = z rho + d := by rw [← hs]; unfold shift; rw [Function.update_self]
          unfold pull; rw [Function.update_self, h1]
          have := ok.loc_ge rho
          rcases hd with ⟨a, b⟩ | ⟨a, b⟩ <;> split <;> omega
        · unfold pull; rw [Function.update_of_ne hr, ← hs]; unfold shift; rw [Function.update_of_ne hr]
      by_cases h0 : z nu' = 0
      · rw [if_pos h0] at hk
        have ho := step_out ok hz hp (.inl ⟨h0, rfl⟩)
        have hrr := idx_bord_range ok ho
        unfold okIdx at hk; simp only at hk
        rw [if_pos (by omega)] at hk
        injection hk with hk
        exact fin (-1) (.inl ⟨h0, rfl⟩) (by omega)
      · rw [if_neg h0] at hk
        by_cases h1 : z nu' = (g.loc nu' : Int) - 1
        · rw [if_pos h1] at hk
          have ho := step_out ok hz hp (.inr ⟨h1, rfl⟩)
          have hrr := idx_bord_range ok ho
          unfold okIdx at hk; simp only at hk
          rw [if_pos (by omega)] at hk
          injection hk with hk
          exact fin 1 (.inr ⟨h1, rfl⟩) (by omega)
        · rw [if_neg h1] at hk; simp [okIdx] at hk
    · rw [if_pos hp] at hk; simp [okIdx] at hk

/-! edges -/

omit ok in
theorem mem_edges (e : Edge) : e ∈ edges := by revert e; decide


/-- the own surface site next to an edge site -/
def pull2 (g : Geo) (x : ICoords) (e : Edge) : ICoords := pull g (pull g x (edgeDirs e).1) (edgeDirs e).2

omit ok in
theorem pull_ne {x : ICoords} {mu nu : Dir} (h : nu ≠ mu) : pull g x mu nu = x nu := by
  unfold pull; rw [Function.update_of_ne h]

/-- pulling the first direction of an edge site leaves a border site of the second direction -/
theorem pull_twoOut {x : ICoords} {e : Edge} (h : TwoOut g x e) : OneOut g (pull g x (edgeDirs e).1) (edgeDirs e).2 := by
  have hne := edge_ne e
  have := ok.loc_ge (edgeDirs e).1
  refine ⟨⟨h.2.1.1, ?_⟩, fun nu hn => ?_⟩
  · rw [pull_ne hne.symm]; exact h.2.1.2
  · by_cases hm : nu = (edgeDirs e).1
    · subst hm; unfold Inside pull; rw [Function.update_self]; split <;> omega
    · have := h.2.2 nu hm hn
      unfold Inside at *; rw [pull_ne hm]; exact this

theorem pull2_inside {x : ICoords} {e : Edge} (h : TwoOut g x e) : ∀ nu, Inside g (pull2 g x e) nu :=
  pull_inside ok (pull_twoOut ok h)

omit ok in
theorem mod_surface {c : Int} {l : Nat} (hl : 2 ≤ l) (h0 : 0 ≤ c) (h1 : c < l) : c % ((l : Int) - 1) = 0 ↔ (c = 0 ∨ c = (l : Int) - 1) := by
  constructor
  · intro h
    by_cases hc : c < (l : Int) - 1
    · left; rwa [Int.emod_eq_of_lt h0 hc] at h
    · right; omega
  · rintro (h | h)
    · subst h; simp
    · subst h; simp

/-- double step out of the box -/
theorem step_out2 {z : ICoords} (hz : ∀ nu, Inside g z nu) {e : Edge} (hp1 : 1 < g.R (edgeDirs e).1) (hp2 : 1 < g.R (edgeDirs e).2) {d1 d2 : Int}
    (hd1 : (z (edgeDirs e).1 = 0 ∧ d1 = -1) ∨ (z (edgeDirs e).1 = (g.loc (edgeDirs e).1 : Int) - 1 ∧ d1 = 1))
    (hd2 : (z (edgeDirs e).2 = 0 ∧ d2 = -1) ∨ (z (edgeDirs e).2 = (g.loc (edgeDirs e).2 : Int) - 1 ∧ d2 = 1)) :
    TwoOut g (shift (shift z (edgeDirs e).1 d1) (edgeDirs e).2 d2) e := by
  have hne := edge_ne e
  refine ⟨⟨hp1, ?_⟩, ⟨hp2, ?_⟩, fun nu hn hn' => ?_⟩
  · unfold shift; rw [Function.update_of_ne hne, Function.update_self]; rcases hd1 with ⟨a, b⟩ | ⟨a, b⟩ <;> omega
  · unfold shift; rw [Function.update_self, Function.update_of_ne hne.symm]; rcases hd2 with ⟨a, b⟩ | ⟨a, b⟩ <;> omega
  · have := hz nu; unfold Inside shift at *; rw [Function.update_of_ne hn', Function.update_of_ne hn]; exact this

/-- value computed by edgelx_of_surflx -/
theorem edgelxOfSurflx_eq (r : Coords) {z : ICoords} (hz : ∀ nu, Inside g z nu) (e : Edge) :
    edgelxOfSurflx g r (idx g z) e =
      if ¬ (1 < g.R (edgeDirs e).1 ∧ 1 < g.R (edgeDirs e).2) then some (-1)
      else if (z (edgeDirs e).1 = 0 ∨ z (edgeDirs e).1 = (g.loc (edgeDirs e).1 : Int) - 1) ∧
          (z (edgeDirs e).2 = 0 ∨ z (edgeDirs e).2 = (g.loc (edgeDirs e).2 : Int) - 1) then
        some ((idx g (shift (shift z (edgeDirs e).1 (if z (edgeDirs e).1 ≠ 0 then 1 else -1)) (edgeDirs e).2
          (if z (edgeDirs e).2 ≠ 0 then 1 else -1)) : Int) - g.locVol - g.bordVol)
      else some (-1) := by
  unfold edgelxOfSurflx
  have hne : nOut g z ≤ 2 := by rw [nOut_inside hz]; omega
  have hl1 := ok.loc_ge (edgeDirs e).1
  have hl2 := ok.loc_ge (edgeDirs e).2
  by_cases hp : 1 < g.R (edgeDirs e).1 ∧ 1 < g.R (edgeDirs e).2
  · simp only [(isPar_iff _).2 hp.1, (isPar_iff _).2 hp.2, Bool.and_self, Bool.not_true, Bool.false_eq_true, if_false, hp, and_self, not_true_eq_false]
    rw [if_neg (by omega), locCoord_table ok hz]
    simp only
    have m1 := mod_surface (c := z (edgeDirs e).1) hl1 (hz _).1 (hz _).2
    have m2 := mod_surface (c := z (edgeDirs e).2) hl2 (hz _).1 (hz _).2
    by_cases h1 : z (edgeDirs e).1 = 0 ∨ z (edgeDirs e).1 = (g.loc (edgeDirs e).1 : Int) - 1
    · rw [if_pos (m1.2 h1)]
      have hd1 : (z (edgeDirs e).1 = 0 ∧ (if z (edgeDirs e).1 ≠ 0 then (1:Int) else -1) = -1) ∨
          (z (edgeDirs e).1 = (g.loc (edgeDirs e).1 : Int) - 1 ∧ (if z (edgeDirs e).1 ≠ 0 then (1:Int) else -1) = 1) := by
        rcases h1 with h1 | h1
        · left; simp [h1]
        · right; refine ⟨h1, ?_⟩; rw [if_pos (by omega)]
      have ho := step_out ok hz hp.1 hd1
      rw [neigh_eq ok r (ext_inside hz) hne, idx_spec ok (ext_oneOut ho) (by rw [nOut_oneOut ho]; omega)]
      simp only
      by_cases h2 : z (edgeDirs e).2 = 0 ∨ z (edgeDirs e).2 = (g.loc (edgeDirs e).2 : Int) - 1
      · have hd2 : (z (edgeDirs e).2 = 0 ∧ (if z (edgeDirs e).2 ≠ 0 then (1:Int) else -1) = -1) ∨
          (z (edgeDirs e).2 = (g.loc (edgeDirs e).2 : Int) - 1 ∧ (if z (edgeDirs e).2 ≠ 0 then (1:Int) else -1) = 1) := by
          rcases h2 with h1 | h1
          · left; simp [h1]
          · right; refine ⟨h1, ?_⟩; rw [if_pos (by omega)]
        have ht := step_out2 ok hz hp.1 hp.2 hd1 hd2
        have hc : (z (edgeDirs e).1 = 0 ∨ z (edgeDirs e).1 = (g.loc (edgeDirs e).1 : Int) - 1) ∧
          (z (edgeDirs e).2 = 0 ∨ z (edgeDirs e).2 = (g.loc (edgeDirs e).2 : Int) - 1) := ⟨h1, h2⟩
        rw [if_pos (m2.2 h2), if_pos hc, Int.toNat_natCast, neigh_eq ok r (ext_oneOut ho) (by rw [nOut_oneOut ho]; omega),
          idx_spec ok (ext_twoOut ht) (by rw [nOut_twoOut ht])]
        rfl
      · rw [if_neg (fun h => h2 (m2.1 h)), if_neg (fun h => h2 h.2)]
    · rw [if_neg (fun h => h1 (m1.1 h)), if_neg (fun h => h1 h.1)]
  · have : (g.isPar (edgeDirs e).1 && g.isPar (edgeDirs e).2) = false := by
      rw [Bool.eq_false_iff]; intro h; simp only [Bool.and_eq_true] at h
      exact hp ⟨(isPar_iff _).1 h.1, (isPar_iff _).1 h.2⟩
    simp only [this, Bool.not_false, if_true, hp, not_false_eq_true]

theorem surf_of_edge (r : Coords) {x : ICoords} {e : Edge} (h : TwoOut g x e) :
    surflxOfEdgelx g r (idx g x - g.locVol - g.bordVol) = some (idx g (pull2 g x e)) := by
  have hpi := pull2_inside ok h
  have hr := idx_edge_range ok h
  have hne := edge_ne e
  have hl1 := ok.loc_ge (edgeDirs e).1
  have hl2 := ok.loc_ge (edgeDirs e).2
  have v1 : pull2 g x e (edgeDirs e).1 = if x (edgeDirs e).1 = -1 then 0 else (g.loc (edgeDirs e).1 : Int) - 1 := by
    unfold pull2; rw [pull_ne hne]; unfold pull; rw [Function.update_self]
  have v2 : pull2 g x e (edgeDirs e).2 = if x (edgeDirs e).2 = -1 then 0 else (g.loc (edgeDirs e).2 : Int) - 1 := by
    unfold pull2
    have : pull g (pull g x (edgeDirs e).1) (edgeDirs e).2 (edgeDirs e).2 =
      if (pull g x (edgeDirs e).1) (edgeDirs e).2 = -1 then 0 else (g.loc (edgeDirs e).2 : Int) - 1 := by
      conv_lhs => unfold pull
      rw [Function.update_self]; rfl
    rw [this, pull_ne hne.symm]
  have v3 : ∀ nu, nu ≠ (edgeDirs e).1 → nu ≠ (edgeDirs e).2 → pull2 g x e nu = x nu := by
    intro nu a b; unfold pull2; rw [pull_ne b, pull_ne a]
  unfold surflxOfEdgelx
  refine (writeLoop_spec _ _ _ _ _).1 _ ⟨(idx g (pull2 g x e), e), ?_, ?_⟩ ?_
  · rw [List.mem_flatMap]
    exact ⟨_, List.mem_range.2 (idx_loc_lt ok hpi), List.mem_map.2 ⟨e, mem_edges e, rfl⟩⟩
  · simp only
    rw [edgelxOfSurflx_eq ok r hpi, if_neg (by simpa using ⟨h.1.1, h.2.1.1⟩), if_pos]
    · have : shift (shift (pull2 g x e) (edgeDirs e).1 (if pull2 g x e (edgeDirs e).1 ≠ 0 then 1 else -1)) (edgeDirs e).2
          (if pull2 g x e (edgeDirs e).2 ≠ 0 then 1 else -1) = x := by
        funext nu
        by_cases hb : nu = (edgeDirs e).2
        · subst hb
          unfold shift; rw [Function.update_self, Function.update_of_ne hne.symm, v2]
          rcases h.2.1.2 with h' | h'
          · simp [h']
          · have : x (edgeDirs e).2 ≠ -1 := by omega
            simp only [this, if_false]; rw [if_pos (by omega)]; omega
        by_cases ha : nu = (edgeDirs e).1
        · subst ha
          unfold shift; rw [Function.update_of_ne hne, Function.update_self, v1]
          rcases h.1.2 with h' | h'
          · simp [h']
          · have : x (edgeDirs e).1 ≠ -1 := by omega
            simp only [this, if_false]; rw [if_pos (by omega)]; omega
        · unfold shift; rw [Function.update_of_ne hb, Function.update_of_ne ha, v3 nu ha hb]
      rw [this]; unfold okIdx; simp only; rw [if_pos (by omega)]; congr 1; omega
    · rw [v1, v2]; constructor <;> split <;> simp
  · rintro ⟨l, e'⟩ hm hk
    rw [List.mem_flatMap] at hm
    obtain ⟨l', hl', hm⟩ := hm
    obtain ⟨e'', _, he⟩ := List.mem_map.1 hm
    injection he with e1 e2; subst e1; subst e2
    obtain ⟨z, hz, rfl⟩ := idx_surj_loc ok (List.mem_range.1 hl')
    simp only at hk ⊢
    rw [edgelxOfSurflx_eq ok r hz] at hk
    by_cases hp : 1 < g.R (edgeDirs e'').1 ∧ 1 < g.R (edgeDirs e'').2
    · rw [if_neg (by simpa using hp)] at hk
      by_cases hs : (z (edgeDirs e'').1 = 0 ∨ z (edgeDirs e'').1 = (g.loc (edgeDirs e'').1 : Int) - 1) ∧
          (z (edgeDirs e'').2 = 0 ∨ z (edgeDirs e'').2 = (g.loc (edgeDirs e'').2 : Int) - 1)
      · rw [if_pos hs] at hk
        have hm1 := ok.loc_ge (edgeDirs e'').1
        have hm2 := ok.loc_ge (edgeDirs e'').2
        have hd1 : (z (edgeDirs e'').1 = 0 ∧ (if z (edgeDirs e'').1 ≠ 0 then (1:Int) else -1) = -1) ∨
            (z (edgeDirs e'').1 = (g.loc (edgeDirs e'').1 : Int) - 1 ∧ (if z (edgeDirs e'').1 ≠ 0 then (1:Int) else -1) = 1) := by
          rcases hs.1 with h1 | h1
          · left; simp [h1]
          · right; refine ⟨h1, ?_⟩; rw [if_pos (by omega)]
        have hd2 : (z (edgeDirs e'').2 = 0 ∧ (if z (edgeDirs e'').2 ≠ 0 then (1:Int) else -1) = -1) ∨
            (z (edgeDirs e'').2 = (g.loc (edgeDirs e'').2 : Int) - 1 ∧ (if z (edgeDirs e'').2 ≠ 0 then (1:Int) else -1) = 1) := by
          rcases hs.2 with h1 | h1
          · left; simp [h1]
          · right; refine ⟨h1, ?_⟩; rw [if_pos (by omega)]
        have ht := step_out2 ok hz hp.1 hp.2 hd1 hd2
        generalize (if z (edgeDirs e'').1 ≠ 0 then (1:Int) else -1) = d1 at *
        generalize (if z (edgeDirs e'').2 ≠ 0 then (1:Int) else -1) = d2 at *
        have htr := idx_edge_range ok ht
        unfold okIdx at hk; simp only at hk
        rw [if_pos (by omega)] at hk
        injection hk with hk
        have hxx := idx_inj ok (ext_twoOut ht) (by rw [nOut_twoOut ht]) (ext_twoOut h) (by rw [nOut_twoOut h]) (by omega)
        have hee : e'' = e := by
          have a1 : Out g x (edgeDirs e'').1 := hxx ▸ ht.1
          have a2 : Out g x (edgeDirs e'').2 := hxx ▸ ht.2.1
          have b1 : (edgeDirs e'').1 = (edgeDirs e).1 ∨ (edgeDirs e'').1 = (edgeDirs e).2 := by
            by_contra hc; push Not at hc; exact a1.not_inside (h.2.2 _ hc.1 hc.2)
          have b2 : (edgeDirs e'').2 = (edgeDirs e).1 ∨ (edgeDirs e'').2 = (edgeDirs e).2 := by
            by_contra hc; push Not at hc; exact a2.not_inside (h.2.2 _ hc.1 hc.2)
          clear * - b1 b2
          revert b1 b2; revert e'' e; decide
        subst hee
        congr 1
        funext rho
        by_cases hb : rho = (edgeDirs e'').2
        · subst hb
          rw [v2, ← hxx]
          unfold shift; rw [Function.update_self, Function.update_of_ne hne.symm]
          rcases hd2 with ⟨a, b⟩ | ⟨a, b⟩ <;> split <;> omega
        by_cases ha : rho = (edgeDirs e'').1
        · subst ha
          rw [v1, ← hxx]
          unfold shift; rw [Function.update_of_ne hne, Function.update_self]
          rcases hd1 with ⟨a, b⟩ | ⟨a, b⟩ <;> split <;> omega
        · rw [v3 rho ha hb, ← hxx]; unfold shift; rw [Function.update_of_ne hb, Function.update_of_ne ha]
      · rw [if_neg hs] at hk; simp [okIdx] at hk
    · rw [if_pos hp] at hk; simp [okIdx] at hk

end
end Nissa.Lx
