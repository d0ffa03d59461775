/-
Property theorems C01–C04 (cartesian geometry). Specification: `Spec.lean`.
-/
import Verif.Geometry.NeighLemmas

namespace Nissa.Lx
open Geo

/-- a concrete geometry used for the non-vacuity examples: 8x4x4x6 on 2x1x2x3 ranks -/
def exGeo : Geo := ⟨![8, 4, 4, 6], ![2, 1, 2, 3]⟩
example : exGeo.Ok := by decide

/-! ### C01 -/

/-- C01: the index of coordinates inside the box is below the volume and gives back the coordinates. -/
theorem C01_coordOfLx_lxOfCoord (s x : Coords) (h : ∀ mu, x mu < s mu) :
    lxOfCoord x s < volOfLx s ∧ coordOfLx (lxOfCoord x s) s = x :=
  ⟨lxOfCoord_lt h, coordOfLx_lxOfCoord h⟩

/-- C01: every index below the volume is the index of the coordinates computed from it, which are inside the box. -/
theorem C01_lxOfCoord_coordOfLx (s : Coords) (hs : ∀ mu, 0 < s mu) (i : Nat) (hi : i < volOfLx s) :
    (∀ mu, coordOfLx i s mu < s mu) ∧ lxOfCoord (coordOfLx i s) s = i :=
  coordOfLx_spec hs hi

/-- the volume is the product of the sides, and z (direction 3) runs fastest -/
theorem C01_volOfLx (s : Coords) : volOfLx s = s 0 * s 1 * s 2 * s 3 := by
  simp [volOfLx, dirs]

theorem C01_order (s x : Coords) : lxOfCoord x s = ((x 0 * s 1 + x 1) * s 2 + x 2) * s 3 + x 3 := by
  simp [lxOfCoord, mix, dirs]

example : coordOfLx 100 ![8, 4, 4, 6] = ![1, 0, 0, 4] ∧ lxOfCoord ![1, 0, 0, 4] ![8, 4, 4, 6] = 100 := by decide

/-- C01, 64-bit global index: as long as the intermediate quotient fits in a (32-bit) `int`, the conversion of a global
index is exact. -/
theorem C01_glbCoordOfGlblx_partial (s : Coords) (hs : ∀ mu, 0 < s mu) (gx : Nat) (h32 : gx / s 3 < 2 ^ 31) :
    glbCoordOfGlblx s gx = fun mu => (coordOfLx gx s mu : Int) := by
  have step : ∀ (n : Nat) (mu : Dir), n / s mu < 2 ^ 31 → toInt32 (Int.tdiv (n : Int) (s mu : Int)) = ((n / s mu : Nat) : Int) := by
    intro n mu h
    rw [← Int.ofNat_tdiv]
    unfold toInt32
    have h0 : (0 : Int) ≤ ((n / s mu : Nat) : Int) := Int.natCast_nonneg _
    exact Int.bmod_eq_of_le (by omega) (by omega)
  have sub : ∀ (n : Nat) (mu : Dir), (n : Int) - ((n / s mu : Nat) : Int) * (s mu : Int) = ((n % s mu : Nat) : Int) := by
    intro n mu
    have := Nat.div_add_mod' n (s mu)
    have h2 : ((n / s mu * s mu + n % s mu : Nat) : Int) = n := by rw [this]
    push_cast at h2 ⊢
    omega
  have le : ∀ (n : Nat) (mu : Dir), n / s mu ≤ n := fun n mu => Nat.div_le_self _ _
  have e3 := step gx 3 h32
  have e2 := step (gx / s 3) 2 (lt_of_le_of_lt (le _ _) h32)
  have e1 := step (gx / s 3 / s 2) 1 (lt_of_le_of_lt (le _ _) (lt_of_le_of_lt (le _ _) h32))
  have e0 := step (gx / s 3 / s 2 / s 1) 0
    (lt_of_le_of_lt (le _ _) (lt_of_le_of_lt (le _ _) (lt_of_le_of_lt (le _ _) h32)))
  unfold glbCoordOfGlblx coordOfLx
  simp only [dirs, List.reverse_cons, List.reverse_nil, List.nil_append, List.cons_append, List.foldl_cons, List.foldl_nil,
    glbCoordStep, coordStep, e3, e2, e1, e0, sub]
  funext mu
  fin_cases mu <;> simp [Function.update_apply]

/-- The code violates C01 for huge lattices: 32-bit truncation of the quotient gives coordinates outside of the lattice. -/
theorem C01_glbCoordOfGlblx_violated :
    ∃ (s : Coords) (gx : Nat), (∀ mu, 0 < s mu) ∧ gx < volOfLx s ∧ glbCoordOfGlblx s gx ≠ fun mu => (coordOfLx gx s mu : Int) := by
  refine ⟨![65536, 65536, 2, 2], 2 ^ 32, by decide, by decide, fun h => ?_⟩
  have := congrFun h 0
  revert this
  decide +kernel

/-! ### C02 -/

/-- C02: a global site goes to an existing rank and local index, and the tables of that rank give its global coordinates
and index back. -/
theorem C02_rank_and_loclx (g : Geo) (ok : g.Ok) (c : Coords) (hc : ∀ mu, c mu < g.L mu) :
    let p := getLoclxAndRankOfCoords g c
    p.1 < g.nranks ∧ p.2 < g.locVol ∧ p.1 = rankHostingSite g c ∧
    glbCoordOfLoclx g (coordOfLx p.1 g.R) p.2 = some c ∧
    glblxOfLoclx g (coordOfLx p.1 g.R) p.2 = some (lxOfCoord c g.L) := by
  have hp : ∀ mu, c mu / g.loc mu < g.R mu := by
    intro mu
    rw [Nat.div_lt_iff_lt_mul (loc_pos ok mu), ← L_eq ok]; exact hc mu
  have hl : ∀ mu, c mu - c mu / g.loc mu * g.loc mu < g.loc mu := by
    intro mu
    have := Nat.div_add_mod' (c mu) (g.loc mu)
    have := Nat.mod_lt (c mu) (loc_pos ok mu)
    omega
  have hin : ∀ mu, Inside g (fun mu => ((c mu - c mu / g.loc mu * g.loc mu : Nat) : Int)) mu := by
    intro mu; have := hl mu; simp only [Inside]; omega
  have hi : idx g (fun mu => ((c mu - c mu / g.loc mu * g.loc mu : Nat) : Int)) =
      lxOfCoord (fun mu => c mu - c mu / g.loc mu * g.loc mu) g.loc := by
    rw [idx_loc ok hin]; congr 1
  have ht : torus g (fun mu => c mu / g.loc mu) (fun mu => ((c mu - c mu / g.loc mu * g.loc mu : Nat) : Int)) = c := by
    funext mu
    unfold torus
    have h1 := Nat.div_mul_le_self (c mu) (g.loc mu)
    have : (((c mu - c mu / g.loc mu * g.loc mu : Nat) : Int) + ((c mu / g.loc mu : Nat) : Int) * g.loc mu) = c mu := by
      rw [Int.natCast_sub h1]; push_cast; omega
    simp only [this]
    rw [Int.emod_eq_of_lt (by omega) (by have := hc mu; omega)]; omega
  simp only [getLoclxAndRankOfCoords]
  rw [coordOfLx_lxOfCoord hp, ← hi, glbCoord_table ok _ (ext_inside hin) (by rw [nOut_inside hin]; omega), glblx_table ok _ hin, ht]
  exact ⟨lxOfCoord_lt hp, by rw [hi, locVol_eq ok]; exact lxOfCoord_lt hl, rfl, rfl, rfl⟩

/-- C02: every (rank, local index) is the image of exactly one global site. -/
theorem C02_bijective (g : Geo) (ok : g.Ok) (rk i : Nat) (hr : rk < g.nranks) (hi : i < g.locVol) :
    ∃! c : Coords, (∀ mu, c mu < g.L mu) ∧ getLoclxAndRankOfCoords g c = (rk, i) := by
  obtain ⟨hr1, hr2⟩ := coordOfLx_spec ok.R_pos hr
  rw [locVol_eq ok] at hi
  obtain ⟨hi1, hi2⟩ := coordOfLx_spec (loc_pos ok) hi
  refine ⟨fun mu => coordOfLx rk g.R mu * g.loc mu + coordOfLx i g.loc mu, ⟨fun mu => ?_, ?_⟩, ?_⟩
  · rw [L_eq ok]
    calc coordOfLx rk g.R mu * g.loc mu + coordOfLx i g.loc mu < coordOfLx rk g.R mu * g.loc mu + g.loc mu := by have := hi1 mu; omega
      _ = (coordOfLx rk g.R mu + 1) * g.loc mu := by ring
      _ ≤ _ := Nat.mul_le_mul_right _ (hr1 mu)
  · have hd : ∀ mu, (coordOfLx rk g.R mu * g.loc mu + coordOfLx i g.loc mu) / g.loc mu = coordOfLx rk g.R mu := by
      intro mu
      rw [Nat.mul_comm, Nat.mul_add_div (loc_pos ok mu), Nat.div_eq_of_lt (hi1 mu), Nat.add_zero]
    simp only [getLoclxAndRankOfCoords, hd, Nat.add_sub_cancel_left]
    exact Prod.ext hr2 hi2
  · rintro c ⟨hc, hg⟩
    have := (C02_rank_and_loclx g ok c hc).2.2.2.1
    rw [hg] at this
    simp only at this
    rw [← hi2] at this
    have hin : ∀ mu, Inside g (fun mu => (coordOfLx i g.loc mu : Int)) mu := by
      intro mu; have := hi1 mu; simp only [Inside]; omega
    have e : lxOfCoord (coordOfLx i g.loc) g.loc = idx g (fun mu => (coordOfLx i g.loc mu : Int)) := by
      rw [idx_loc ok hin]; congr 1
    rw [e, glbCoord_table ok _ (ext_inside hin) (by rw [nOut_inside hin]; omega)] at this
    injection this with this
    rw [← this]
    funext mu
    unfold torus
    have hlt : coordOfLx i g.loc mu + coordOfLx rk g.R mu * g.loc mu < g.L mu := by
      rw [L_eq ok]
      calc _ < coordOfLx rk g.R mu * g.loc mu + g.loc mu := by have := hi1 mu; omega
        _ = (coordOfLx rk g.R mu + 1) * g.loc mu := by ring
        _ ≤ _ := Nat.mul_le_mul_right _ (hr1 mu)
    simp only
    rw [Int.emod_eq_of_lt (by positivity) (by exact_mod_cast hlt)]
    have : ((coordOfLx i g.loc mu : Int) + coordOfLx rk g.R mu * g.loc mu) =
      ((coordOfLx i g.loc mu + coordOfLx rk g.R mu * g.loc mu : Nat) : Int) := by push_cast; ring
    rw [this, Int.toNat_natCast, Nat.add_comm]

example : getLoclxAndRankOfCoords exGeo ![5, 1, 3, 4] = (11, 22) ∧ (∀ mu, ![5, 1, 3, 4] mu < exGeo.L mu) := by decide

/-! ### C03 -/

/-- C03: on any rank, from a local site, both neighbours along every direction exist in the extended lattice (they are
local again if the direction is not split among ranks) and carry the global coordinates moved by one on the torus. -/
theorem C03_neighbours_of_local (g : Geo) (ok : g.Ok) (r : Coords) (i : Nat) (hi : i < g.locVol)
    (mu : Dir) (d : Int) (hd : d = 1 ∨ d = -1) :
    ∃ (j : Nat) (c : Coords), loclxNeigh g r d i mu = some (j : Int) ∧ j < g.locVol + g.bordVol ∧
      (¬ 1 < g.R mu → j < g.locVol) ∧
      glbCoordOfLoclx g r i = some c ∧ glbCoordOfLoclx g r j = some (tshift g c mu d) := by
  obtain ⟨x, hx, rfl⟩ := idx_surj_loc ok hi
  have h0 := nOut_inside hx
  obtain ⟨y, hy, hmod, hag, hpar, hnp⟩ := step_inside ok (ext_inside hx) (hx mu) hd
  have hn : nOut g y ≤ 1 := by have := nOut_le_of_agree (hx mu) hag; omega
  refine ⟨idx g y, torus g r x, ?_, ?_, ?_, glbCoord_table ok r (ext_inside hx) (by omega), ?_⟩
  · rw [neigh_eq ok r (ext_inside hx) (by omega), ← fullLx_congr ok hmod, idx_spec ok hy (by omega)]
  · rcases ext_cases hy with ⟨h, _⟩ | ⟨nu, h, _⟩ | ⟨_, _, h⟩ | ⟨_, _, _, _, _, _, _, _, _, h⟩
    · have := idx_loc_lt ok h; omega
    · exact (idx_bord_range ok h).2
    · omega
    · omega
  · intro hh
    refine idx_loc_lt ok (fun nu => ?_)
    by_cases hm : nu = mu
    · subst hm; exact hnp hh
    · have := hx nu; unfold Inside at this ⊢; rw [hag nu hm]; exact this
  · rw [glbCoord_table ok r hy (by omega), torus_congr ok r hmod, torus_shift ok]

/-- C03: going one step and coming back returns to the starting site, whenever the site reached is local or a border one. -/
theorem C03_back_and_forth (g : Geo) (ok : g.Ok) (r : Coords) (i : Nat) (hi : i < g.locVol)
    (mu : Dir) (d : Int) (hd : d = 1 ∨ d = -1) (j : Nat) (hj : loclxNeigh g r d i mu = some (j : Int)) :
    loclxNeigh g r (-d) j mu = some (i : Int) := by
  obtain ⟨x, hx, rfl⟩ := idx_surj_loc ok hi
  have h0 := nOut_inside hx
  obtain ⟨y, hy, hmod, hag, hpar, hnp⟩ := step_inside ok (ext_inside hx) (hx mu) hd
  have hn : nOut g y ≤ 1 := by have := nOut_le_of_agree (hx mu) hag; omega
  rw [neigh_eq ok r (ext_inside hx) (by omega), ← fullLx_congr ok hmod, idx_spec ok hy (by omega)] at hj
  have : j = idx g y := by injection hj with hj; omega
  rw [this, neigh_eq ok r hy (by omega)]
  rw [fullLx_congr ok (y := x), idx_spec ok (ext_inside hx) (by omega)]
  intro nu
  by_cases hm : nu = mu
  · subst hm
    have := hmod nu
    unfold shift at this ⊢
    rw [Function.update_self] at this ⊢
    rw [Int.add_emod, this, ← Int.add_emod]; congr 1; ring
  · unfold shift; rw [Function.update_of_ne hm, hag nu hm]

/-- C03: from a border site, the neighbour along any direction is either reported as missing (-1), which happens only along
the direction of the border itself, or carries the global coordinates moved by one. -/
theorem C03_neighbours_of_border (g : Geo) (ok : g.Ok) (r : Coords) (i : Nat) (hi : i < g.bordVol)
    (mu : Dir) (d : Int) (hd : d = 1 ∨ d = -1) :
    ∃ (j : Int) (c : Coords), loclxNeigh g r d (g.locVol + i) mu = some j ∧ glbCoordOfLoclx g r (g.locVol + i) = some c ∧
      (j = -1 ∨ (0 ≤ j ∧ j < (g.locVol + g.bordVol + g.edgeVol : Nat) ∧ glbCoordOfLoclx g r j.toNat = some (tshift g c mu d))) := by
  obtain ⟨x, nu, hx, he⟩ := idx_surj_bord ok hi
  have hxe := ext_oneOut hx
  have hn1 := nOut_oneOut hx
  rw [← he]
  have hlt : ∀ y, Ext g y → nOut g y ≤ 2 → idx g y < g.locVol + g.bordVol + g.edgeVol := by
    intro y hy hn
    rcases ext_cases hy with ⟨h, _⟩ | ⟨nu, h, _⟩ | ⟨_, h, _⟩ | ⟨_, _, _, _, _, _, _, _, _, h⟩
    · have := idx_loc_lt ok h; omega
    · have := (idx_bord_range ok h).2; omega
    · have := (idx_edge_range ok h).2; omega
    · omega
  have good : ∀ y, Ext g y → nOut g y ≤ 2 → (∀ rho, y rho % (g.L rho : Int) = shift x mu d rho % (g.L rho : Int)) →
      ∃ (j : Int) (c : Coords), loclxNeigh g r d (idx g x) mu = some j ∧ glbCoordOfLoclx g r (idx g x) = some c ∧
      (j = -1 ∨ (0 ≤ j ∧ j < (g.locVol + g.bordVol + g.edgeVol : Nat) ∧ glbCoordOfLoclx g r j.toNat = some (tshift g c mu d))) := by
    intro y hy hn hmod
    refine ⟨(idx g y : Int), torus g r x, ?_, glbCoord_table ok r hxe (by omega), .inr ⟨by omega, ?_, ?_⟩⟩
    · rw [neigh_eq ok r hxe (by omega), ← fullLx_congr ok hmod, idx_spec ok hy hn]
    · have := hlt y hy hn; omega
    · rw [Int.toNat_natCast, glbCoord_table ok r hy hn, torus_congr ok r hmod, torus_shift ok]
  by_cases hm : mu = nu
  · subst hm
    -- along the border direction: coordinate x mu + d, everything else inside
    have hloc := ok.loc_ge mu
    have h2 := two_loc_le_L ok hx.1.1
    by_cases hin : Inside g (shift x mu d) mu
    · have hall : ∀ rho, Inside g (shift x mu d) rho := by
        intro rho
        by_cases h : rho = mu
        · subst h; exact hin
        · have := hx.2 rho h; unfold Inside shift at *; rw [Function.update_of_ne h]; exact this
      exact good _ (ext_inside hall) (by rw [nOut_inside hall]; omega) (fun _ => rfl)
    · -- either another border (two ranks of two sites) or nothing
      by_cases hb : g.L mu = 2 * g.loc mu ∧ g.loc mu = 2
      · -- 4 sites: x+d is 3 ≡ -1 or -2 ≡ 2 = loc
        let y : ICoords := Function.update x mu (if x mu = -1 then (g.loc mu : Int) else -1)
        have hy : OneOut g y mu := by
          refine ⟨⟨hx.1.1, ?_⟩, fun rho h => ?_⟩
          · simp only [y, Function.update_self]; split <;> omega
          · have := hx.2 rho h; unfold Inside at *; simp only [y, Function.update_of_ne h]; exact this
        refine good y (ext_oneOut hy) (by rw [nOut_oneOut hy]; omega) (fun rho => ?_)
        by_cases h : rho = mu
        · subst h
          have hxo := hx.1.2
          simp only [y, Function.update_self, shift]
          unfold Inside shift at hin
          rw [Function.update_self] at hin
          have hL : (g.L rho : Int) = 4 := by omega
          rw [hL]
          split <;> omega
        · simp only [y, shift, Function.update_of_ne h]
      · -- not available
        refine ⟨-1, torus g r x, ?_, glbCoord_table ok r hxe (by omega), .inl rfl⟩
        rw [neigh_eq ok r hxe (by omega)]
        have hoth : ∀ rho, rho ≠ mu → Inside g (shift x mu d) rho := by
          intro rho h
          have := hx.2 rho h; unfold Inside shift at *; rw [Function.update_of_ne h]; exact this
        have hb0 : ∀ rho, g.isBord (g.pseudoLoc (shift x mu d)) rho = 0 ∧ (rho = mu → g.isLoc (g.pseudoLoc (shift x mu d)) = false) := by
          intro rho
          by_cases h : rho = mu
          · subst h
            have hxo := hx.1.2
            have hm : ∃ v : Int, (shift x rho d rho) % (g.L rho : Int) = v ∧ (g.loc rho : Int) + 1 ≤ v ∧ v ≤ g.L rho - 2 ∧ v ≠ g.loc rho := by
              unfold Inside at hin
              have hs : shift x rho d rho = x rho + d := by unfold shift; rw [Function.update_self]
              rw [hs] at hin ⊢
              have hL3 : g.L rho ≠ 2 * g.loc rho → 3 * g.loc rho ≤ g.L rho := by
                intro hne
                have hR : g.R rho ≠ 2 := by intro h2; rw [L_eq ok, h2] at hne; exact hne rfl
                have hR' := hx.1.1
                rw [L_eq ok]; exact Nat.mul_le_mul_right _ (by omega)
              rcases hxo with h1 | h1
              · have : d = -1 := by omega
                subst this
                refine ⟨g.L rho - 2, ?_, by omega, by omega, by omega⟩
                rw [h1, ← Int.add_emod_right, Int.emod_eq_of_lt (by omega) (by omega)]; omega
              · have : d = 1 := by omega
                subst this
                refine ⟨g.loc rho + 1, ?_, by omega, by omega, by omega⟩
                rw [h1, Int.emod_eq_of_lt (by omega) (by omega)]
            obtain ⟨v, hv, hv1, hv2, hv3⟩ := hm
            have hpl : (g.pseudoLoc (shift x rho d) rho : Int) = v := by
              rw [pseudoLoc_eq (L_pos ok), hv]; omega
            refine ⟨?_, fun _ => ?_⟩
            · unfold Geo.isBord
              split
              · rw [if_neg (by omega), if_neg (by omega)]
              · rfl
            · unfold Geo.isLoc
              rw [List.all_eq_false]
              exact ⟨rho, mem_dirs rho, by simp; omega⟩
          · exact ⟨isBord_inside ok (hoth rho h), fun hh => absurd hh h⟩
        unfold Geo.fullLx
        simp only [(hb0 mu).2 rfl, Bool.false_eq_true, if_false]
        have e1 : dirs.findSome? (g.bordCase (g.pseudoLoc (shift x mu d))) = none := by
          rw [List.findSome?_eq_none_iff]
          intro rho _
          unfold Geo.bordCase
          rw [if_neg]; simp [(hb0 rho).1]
        have e2 : edgeTriples.findSome? (fun t => g.edgeCase (g.pseudoLoc (shift x mu d)) t.1 t.2.1 t.2.2) = none := by
          rw [List.findSome?_eq_none_iff]
          intro t _
          unfold Geo.edgeCase
          simp only
          rw [if_neg]; simp [(hb0 t.1).1]
        rw [e1, e2]
  · have hin : Inside g x mu := hx.2 mu hm
    obtain ⟨y, hy, hmod, hag, _, _⟩ := step_inside ok hxe hin hd
    exact good y hy (by have := nOut_le_of_agree hin hag; omega) hmod

example : (5 : Nat) < exGeo.locVol ∧ (7 : Nat) < exGeo.bordVol ∧ 1 < exGeo.R 3 ∧ ¬ 1 < exGeo.R 1 := by decide
example : exGeo.fullLx (shift ![0, 0, 0, 1] 3 1) = some 192 := by decide +kernel

/-- The statement fails for the *edge* sites: stepping further out from an edge site, the tables return an index which is
neither -1 nor the neighbour (6x6x2x2 on 3x3x1x1 ranks). -/
theorem C03_edge_sites_violated :
    ∃ (g : Geo) (r : Coords) (x : ICoords) (mu : Dir) (j : Int),
      g.Ok ∧ IsRank g r ∧ Ext g x ∧ nOut g x = 2 ∧
      loclxNeigh g r (-1) (idx g x) mu = some j ∧ j ≠ -1 ∧
      glbCoordOfLoclx g r j.toNat ≠ some (tshift g (torus g r x) mu (-1)) := by
  let g0 : Geo := ⟨![6, 6, 2, 2], ![3, 3, 1, 1]⟩
  let x0 : ICoords := ![-1, -1, 0, 0]
  have ok : g0.Ok := by decide
  have hx : Ext g0 x0 := by decide
  have hn : nOut g0 x0 = 2 := by decide
  have hf : g0.fullLx (shift x0 0 (-1)) = some 40 := by decide +kernel
  refine ⟨g0, ![0, 0, 0, 0], x0, 0, 40, ok, by intro mu; fin_cases mu <;> decide, hx, hn, ?_, by decide, ?_⟩
  · rw [neigh_eq ok _ hx (by omega)]; exact hf
  · -- index 40 is the site with relative coordinates (0,2,0,0), not the requested one
    intro h
    have hk : ∃ z : ICoords, Ext g0 z ∧ nOut g0 z ≤ 2 ∧ idx g0 z = 40 ∧ torus g0 ![0, 0, 0, 0] z ≠ tshift g0 (torus g0 ![0, 0, 0, 0] x0) 0 (-1) := by
      refine ⟨![0, 2, 0, 0], by decide, by decide, by decide +kernel, ?_⟩
      intro h; have := congrFun h 0; revert this; decide +kernel
    obtain ⟨z, hz, hnz, hiz, hne⟩ := hk
    have := glbCoord_table ok ![0, 0, 0, 0] hz hnz
    rw [hiz] at this
    have h40 : (40 : Int).toNat = 40 := rfl
    rw [h40, this] at h
    injection h with h
    exact hne h

/-! ### C04 -/

/-- C04: the index of an extended site tells its kind: local, border (one direction out), edge (two directions out);
sites out in three or four directions are reported as not available. The code never CRASHes on extended sites. -/
theorem C04_index_ranges (g : Geo) (ok : g.Ok) (x : ICoords) (hx : Ext g x) :
    ∃ i : Int, g.fullLx x = some i ∧
      (nOut g x = 0 → 0 ≤ i ∧ i < g.locVol) ∧
      (nOut g x = 1 → g.locVol ≤ i ∧ i < (g.locVol + g.bordVol : Nat)) ∧
      (nOut g x = 2 → (g.locVol + g.bordVol : Nat) ≤ i ∧ i < (g.locVol + g.bordVol + g.edgeVol : Nat)) ∧
      (3 ≤ nOut g x → i = -1) := by
  rcases ext_cases hx with ⟨h, hn⟩ | ⟨nu, h, hn⟩ | ⟨e, h, hn⟩ | ⟨a, b, c, hab, hac, hbc, h1, h2, h3, hn⟩
  · refine ⟨_, idx_spec ok hx (by omega), fun _ => ?_, fun _ => by omega, fun _ => by omega, fun _ => by omega⟩
    have := idx_loc_lt ok h; omega
  · refine ⟨_, idx_spec ok hx (by omega), fun _ => by omega, fun _ => ?_, fun _ => by omega, fun _ => by omega⟩
    have := idx_bord_range ok h; omega
  · refine ⟨_, idx_spec ok hx (by omega), fun _ => by omega, fun _ => by omega, fun _ => ?_, fun _ => by omega⟩
    have := idx_edge_range ok h; omega
  · exact ⟨-1, fullLx_three ok hab hac hbc h1 h2 h3, fun _ => by omega, fun _ => by omega, fun _ => by omega, fun _ => rfl⟩

/-- C04: no two extended sites share an index. -/
theorem C04_index_injective (g : Geo) (ok : g.Ok) (x y : ICoords) (hx : Ext g x) (hy : Ext g y)
    (hnx : nOut g x ≤ 2) (hny : nOut g y ≤ 2) (h : g.fullLx x = g.fullLx y) : x = y := by
  refine idx_inj ok hx hnx hy hny ?_
  unfold idx; rw [h]

/-- C04: every index of the extended volume is the index of an extended site. -/
theorem C04_index_surjective (g : Geo) (ok : g.Ok) (i : Nat) (hi : i < g.locVol + g.bordVol + g.edgeVol) :
    ∃ x, Ext g x ∧ nOut g x ≤ 2 ∧ g.fullLx x = some (i : Int) := by
  by_cases h1 : i < g.locVol
  · obtain ⟨x, hx, rfl⟩ := idx_surj_loc ok h1
    have := nOut_inside hx
    exact ⟨x, ext_inside hx, by omega, idx_spec ok (ext_inside hx) (by omega)⟩
  by_cases h2 : i < g.locVol + g.bordVol
  · obtain ⟨x, mu, hx, he⟩ := idx_surj_bord ok (i := i - g.locVol) (by omega)
    have := nOut_oneOut hx
    refine ⟨x, ext_oneOut hx, by omega, ?_⟩
    rw [idx_spec ok (ext_oneOut hx) (by omega), he]; congr 2; omega
  · obtain ⟨x, mu, hx, he⟩ := idx_surj_edge ok (i := i - g.locVol - g.bordVol) (by omega)
    have := nOut_twoOut hx
    refine ⟨x, ext_twoOut hx, by omega, ?_⟩
    rw [idx_spec ok (ext_twoOut hx) (by omega), he]; congr 2; omega

/-- C04: sizes of the halo: twice the sum of the perpendicular volumes, and four times the sum of the doubly
perpendicular ones. -/
theorem C04_volumes (g : Geo) (ok : g.Ok) :
    g.locVol = g.loc 0 * g.loc 1 * g.loc 2 * g.loc 3 ∧ g.locVol * g.nranks = g.glbVol ∧
    (∀ mu, 1 < g.R mu → g.bordDirVol mu * g.loc mu = g.locVol) := by
  have hv := locVol_eq ok
  refine ⟨by rw [hv, C01_volOfLx], ?_, fun mu h => ?_⟩
  · rw [hv]
    simp only [Geo.glbVol, Geo.nranks, C01_volOfLx, L_eq ok]; ring
  · rw [bordDirVol_eq ok h, hv]
    fin_cases mu <;> simp [volR, dirs, volOfLx] <;> ring

example : Ext exGeo ![-1, 3, 2, 1] ∧ nOut exGeo ![-1, 3, 2, 1] = 2 ∧ exGeo.edgeVol > 0 := by decide

end Nissa.Lx
