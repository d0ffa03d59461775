import Verif.Ib.PropsSource2

/-! # C74: point sources, origin of the hit, local insertions -/

set_option linter.all false

namespace Nissa.Src
open Nissa.Lx Nissa.Sten Nissa.Su3f Nissa.Gauge Nissa.Gamma Nissa.StD Nissa.Wilson Nissa.Contr Nissa.Vertex Nissa.Sitmo Matrix Complex

noncomputable section

theorem onSlice_iff {L ori c : Coords} (ho : ori 0 < L 0) (hc : c 0 < L 0) {tins : Int} (h : tins ≠ -1) :
    onSlice L ori tins c ↔ 0 ≤ tins ∧ tins < L 0 ∧ c 0 = (ori 0 + tins.toNat) % L 0 := by
  have h1 := dist_spec ho hc
  unfold onSlice
  constructor
  · rintro (a | a)
    · exact absurd a h
    · refine ⟨by omega, by omega, ?_⟩
      rw [← a, Int.toNat_natCast, h1.2]
  · rintro ⟨a, b, e⟩
    right
    unfold dist
    rw [e]
    have : ((ori 0 + tins.toNat) % L 0 + (L 0 - ori 0)) % L 0 = tins.toNat := by
      rw [Nat.mod_add_mod, show ori 0 + tins.toNat + (L 0 - ori 0) = tins.toNat + L 0 by omega, Nat.add_mod_right, Nat.mod_eq_of_lt (by omega)]
    rw [this]
    omega

/-- **C74**.  The number of points of a source: all the lattice, a slice, or none if the time does not exist -/
theorem C74_points {L ori : Coords} (ho : ori ∈ box L) (tins : Int) :
    ((box L).filter (fun c => onSlice L ori tins c)).card = if tins = -1 then L 0 * L 1 * L 2 * L 3 else if 0 ≤ tins ∧ tins < L 0 then L 1 * L 2 * L 3 else 0 := by
  by_cases h : tins = -1
  · rw [if_pos h, Finset.filter_true_of_mem (p := fun c => onSlice L ori tins c) (fun c _ => Or.inl h)]
    unfold box
    rw [Fintype.card_piFinset]
    simp [Fin.prod_univ_four]
  · rw [if_neg h]
    have e : (box L).filter (fun c => onSlice L ori tins c) = (box L).filter (fun c => 0 ≤ tins ∧ tins < L 0 ∧ c 0 = (ori 0 + tins.toNat) % L 0) :=
      Finset.filter_congr fun c hc => onSlice_iff (mem_box.1 ho 0) (mem_box.1 hc 0) h
    rw [e]
    by_cases h1 : 0 ≤ tins ∧ tins < L 0
    · rw [if_pos h1]
      have e2 : (box L).filter (fun c => 0 ≤ tins ∧ tins < L 0 ∧ c 0 = (ori 0 + tins.toNat) % L 0) =
          Fintype.piFinset (fun mu : Dir => if mu = 0 then {(ori 0 + tins.toNat) % L 0} else Finset.range (L mu)) := by
        ext c
        rw [Finset.mem_filter, mem_box, Fintype.mem_piFinset]
        constructor
        · rintro ⟨a, -, -, b⟩ mu
          by_cases hm : mu = 0
          · subst hm; simp [b]
          · simp [hm, a mu]
        · intro a
          have a0 : c 0 = (ori 0 + tins.toNat) % L 0 := by simpa using a 0
          refine ⟨fun mu => ?_, h1.1, h1.2, a0⟩
          by_cases hm : mu = 0
          · subst hm; rw [a0]; exact Nat.mod_lt _ (by have := mem_box.1 ho 0; omega)
          · simpa [hm] using a mu
      rw [e2, Fintype.card_piFinset, Fin.prod_univ_four]
      simp
    · rw [if_neg h1, Finset.card_eq_zero, Finset.filter_eq_empty_iff]
      rintro c - ⟨a, b, -⟩
      exact h1 ⟨a, b⟩

section
variable {g : Geo} (ok : g.Ok)
include ok

/-- **C74**.  The program stops exactly if a source which is not stochastic is not diluted in spin and colour, or if the noise is not one of those above and is needed at some point -/
theorem C74_stops (P : Pars) (jc : Coords) (ji : Nat) (sched : Nat → Nat → List Nat) {ori : Coords} (ho : ori ∈ box g.L) (tins : Int) (nt : Rnd) (draw : Nat → Nat → ℚ)
    (hd : ∀ x i, 0 ≤ draw x i ∧ draw x i < 1) :
    generate_original_source P g jc ji sched ori tins nt draw = none ↔
      (P.stoch = false ∧ (P.dilSpi = false ∨ P.dilCol = false)) ∨ (P.stoch = true ∧ ¬ known nt ∧ (tins = -1 ∨ 0 ≤ tins ∧ tins < g.L 0)) := by
  obtain ⟨stoch, dilSpi, dilCol⟩ := P
  cases stoch
  · simp only [Bool.false_eq_true, false_and, or_false, true_and]
    unfold generate_original_source
    by_cases h : dilSpi = false ∨ dilCol = false
    · simp [h]
    · rw [if_neg (by simpa using h), if_pos]
      · simp only [reduceCtorEq, false_iff]; exact h
      · intro rk hrk i hi
        obtain ⟨c, ⟨h1, h2⟩, -⟩ := C02_bijective g ok rk i hrk hi
        have h3 := (C02_rank_and_loclx g ok c h1).2.2.2.1
        rw [h2] at h3
        rw [siteSource_point ok dilSpi dilCol jc ji ho tins nt draw h3 (mem_box.2 h1)]
        rfl
  · simp only [Bool.true_eq_false, false_and, false_or, true_and]
    by_cases hk : known nt
    · obtain ⟨sp, norm, e, -⟩ := C74_source ok dilSpi dilCol jc ji sched ho tins hk draw hd
      rw [e]
      simp [hk]
    · simp only [hk, not_false_eq_true, true_and]
      have hex : (∃ c ∈ box g.L, onSlice g.L ori tins c) ↔ (tins = -1 ∨ 0 ≤ tins ∧ tins < g.L 0) := by
        by_cases hm : tins = -1
        · simp only [hm, true_or, iff_true]
          exact ⟨ori, ho, Or.inl rfl⟩
        · simp only [hm, false_or]
          constructor
          · rintro ⟨c, hc, hs⟩
            have := (onSlice_iff (mem_box.1 ho 0) (mem_box.1 hc 0) hm).1 hs
            exact ⟨this.1, this.2.1⟩
          · intro hr
            have hL : 0 < g.L 0 := L_pos ok 0
            have hc : Function.update ori 0 ((ori 0 + tins.toNat) % g.L 0) ∈ box g.L := by
              rw [mem_box]
              intro mu
              by_cases hmu : mu = 0
              · subst hmu; simp [Nat.mod_lt _ hL]
              · simp [hmu, mem_box.1 ho mu]
            exact ⟨_, hc, (onSlice_iff (mem_box.1 ho 0) (mem_box.1 hc 0) hm).2 ⟨hr.1, hr.2, by simp⟩⟩
      rw [← hex]
      unfold generate_original_source
      rw [if_neg (by simp)]
      constructor
      · intro h
        by_contra hno
        rw [if_pos] at h
        · cases h
        · intro rk hrk i hi
          obtain ⟨c, ⟨h1, h2⟩, -⟩ := C02_bijective g ok rk i hrk hi
          have h3 := (C02_rank_and_loclx g ok c h1).2.2.2.1
          rw [h2] at h3
          rw [siteSource_stoch ok dilSpi dilCol jc ji ho tins nt draw hd hrk hi h3 (mem_box.2 h1), if_neg (fun hs => hno ⟨c, mem_box.2 h1, hs⟩)]
          rfl
      · rintro ⟨c, hc, hs⟩
        rw [if_neg]
        intro hall
        obtain ⟨rk, i, hrk, hi, -, hx, -⟩ := lxSite ok hc
        have := hall rk hrk i hi
        rw [siteSource_stoch ok dilSpi dilCol jc ji ho tins nt draw hd hrk hi hx hc, if_pos hs, if_neg hk] at this
        cases this

/-- **C74**.  Point source: each of the twelve sources is 1 in its own component at the origin, and 0 elsewhere; the norm is 12 -/
theorem C74_point (jc : Coords) (ji : Nat) (sched : Nat → Nat → List Nat) {ori : Coords} (ho : ori ∈ box g.L) (tins : Int) (nt : Rnd) (draw : Nat → Nat → ℚ) :
    ∃ sp norm, generate_original_source ⟨false, true, true⟩ g jc ji sched ori tins nt draw = some (sp, norm) ∧
      (∀ isp : Fin 4, ∀ icol : Fin 3, ∀ c ∈ box g.L, ∀ id ic, glob g (sp (so_sp_col_ind 3 isp icol)) c id ic = if c = ori ∧ id = isp ∧ ic = icol then 1 else 0) ∧
      ((∀ rk, Reduce.Legal (sched rk)) → norm = 12) := by
  unfold generate_original_source
  rw [if_neg (by simp)]
  have hall : ∀ rk < g.nranks, ∀ i < g.locVol, (siteSource ⟨false, true, true⟩ g jc ji ori tins nt draw rk i).isSome := by
    intro rk hrk i hi
    obtain ⟨c, ⟨h1, h2⟩, -⟩ := C02_bijective g ok rk i hrk hi
    have h3 := (C02_rank_and_loclx g ok c h1).2.2.2.1
    rw [h2] at h3
    rw [siteSource_point ok true true jc ji ho tins nt draw h3 (mem_box.2 h1)]
    rfl
  rw [if_pos hall]
  refine ⟨_, _, rfl, ?_⟩
  have hval : ∀ isp : Fin 4, ∀ icol : Fin 3, ∀ c ∈ box g.L, ∀ id ic, glob g (fun rk ivol =>
        let s := (siteSource ⟨false, true, true⟩ g jc ji ori tins nt draw rk ivol).getD 0
        if so_sp_col_ind 3 isp icol = 0 then s else diluteSite ⟨false, true, true⟩ (so_sp_col_ind 3 isp icol / 3) (so_sp_col_ind 3 isp icol % 3) s) c id ic =
        if c = ori ∧ id = isp ∧ ic = icol then 1 else 0 := by
    intro isp icol c hc id ic
    obtain ⟨rk, i, hrk, hi, -, hx, hG⟩ := lxSite ok hc
    rw [hG]
    try simp only
    rw [siteSource_point ok true true jc ji ho tins nt draw hx hc, Option.getD_some]
    have e1 : so_sp_col_ind 3 isp icol / 3 = isp := by unfold so_sp_col_ind; omega
    have e2 : so_sp_col_ind 3 isp icol % 3 = icol := by unfold so_sp_col_ind; omega
    rw [e1, e2]
    by_cases h0 : so_sp_col_ind 3 isp icol = 0
    · rw [if_pos h0]
      unfold so_sp_col_ind at h0
      have a : isp = 0 := by apply Fin.ext; show isp.val = 0; omega
      have b : icol = 0 := by apply Fin.ext; show icol.val = 0; omega
      rw [a, b]
    · rw [if_neg h0]
      unfold diluteSite
      simp only [if_true, not_true, or_false, Fin.ext_iff]
      by_cases h1 : id.val = isp.val <;> by_cases h2 : ic.val = icol.val <;> by_cases h3 : c = ori <;> simp [h1, h2, h3]
  refine ⟨hval, fun hl => ?_⟩
  rw [fold2]
  simp only [norm2_sites ok sched hl]
  show ∑ i ∈ Finset.range 4, ∑ j ∈ Finset.range 3, _ = _
  rw [Finset.sum_range]
  have : ∀ i : Fin 4, ∑ j ∈ Finset.range 3, ∑ c ∈ box g.L, ∑ id, ∑ ic, normSq (glob g (fun rk ivol =>
        let s := (siteSource ⟨false, true, true⟩ g jc ji ori tins nt draw rk ivol).getD 0
        if so_sp_col_ind 3 i j = 0 then s else diluteSite ⟨false, true, true⟩ (so_sp_col_ind 3 i j / 3) (so_sp_col_ind 3 i j % 3) s) c id ic) = 3 := by
    intro i
    rw [Finset.sum_range]
    have : ∀ j : Fin 3, ∑ c ∈ box g.L, ∑ id, ∑ ic, normSq (glob g (fun rk ivol =>
        let s := (siteSource ⟨false, true, true⟩ g jc ji ori tins nt draw rk ivol).getD 0
        if so_sp_col_ind 3 i j = 0 then s else diluteSite ⟨false, true, true⟩ (so_sp_col_ind 3 i j / 3) (so_sp_col_ind 3 i j % 3) s) c id ic) = 1 := by
      intro j
      rw [Finset.sum_eq_single ori]
      · rw [Finset.sum_eq_single i, Finset.sum_eq_single j]
        · rw [hval i j ori ho]; simp
        · intro b _ hb; rw [hval i j ori ho]; simp [hb]
        · simp
        · intro b _ hb
          refine Finset.sum_eq_zero fun ic _ => ?_
          rw [hval i j ori ho]; simp [hb]
        · simp
      · intro c hc hne
        refine Finset.sum_eq_zero fun id _ => Finset.sum_eq_zero fun ic _ => ?_
        rw [hval i j c hc]; simp [hne]
      · intro h; exact absurd ho h
    rw [Finset.sum_congr rfl fun j _ => this j]
    simp
  exact (Finset.sum_congr rfl fun i _ => this i).trans (by simp; norm_num)

end

end

end Nissa.Src
