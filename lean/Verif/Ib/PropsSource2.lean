import Verif.Ib.PropsSource1

/-! # C74: the sources -/

set_option linter.all false

namespace Nissa.Src
open Nissa.Lx Nissa.Sten Nissa.Su3f Nissa.Gauge Nissa.Gamma Nissa.StD Nissa.Wilson Nissa.Contr Nissa.Vertex Nissa.Sitmo Matrix Complex

noncomputable section

theorem pm_sq (u : ℚ) : pm u * pm u = 1 := by unfold pm; split <;> norm_num

theorem normSq_noise {nt : Rnd} (hk : known nt) (u v : ℚ) : normSq (specNoise nt u v) = 1 := by
  have h2 : (√2 : ℝ) * √2 = 2 := Real.mul_self_sqrt (by norm_num)
  rcases hk with h | h | h | h <;> subst h
  · simp [specNoise]
  · simp [specNoise]
  · simp [specNoise, normSq_ofReal, pm_sq]
  · show normSq (((pm u : ℂ) + I * (pm v : ℂ)) / (√2 : ℝ)) = 1
    rw [normSq_div, normSq_ofReal, h2]
    have := pm_sq u
    have := pm_sq v
    rw [normSq_apply]
    simp
    linarith

theorem fold2 (n m : Nat) (F : Nat → Nat → ℝ) : (List.range n).foldl (fun a i => (List.range m).foldl (fun a j => a + F i j) a) 0 = ∑ i ∈ Finset.range n, ∑ j ∈ Finset.range m, F i j := by
  simp only [foldl_add', Stag.list_range_sum, zero_add]

theorem count_spin (d : Bool) : ∑ i ∈ Finset.range (if d then 4 else 1), ∑ id : Fin 4, (if d = true → id.val = i then (1 : ℝ) else 0) = 4 := by
  cases d
  · simp
  · simp only [forall_const, if_true]
    rw [Finset.sum_comm]
    simp only [Finset.sum_ite_eq, Finset.mem_range, Fin.is_lt, if_true]
    simp

theorem count_col (d : Bool) : ∑ i ∈ Finset.range (if d then 3 else 1), ∑ id : Fin 3, (if d = true → id.val = i then (1 : ℝ) else 0) = 3 := by
  cases d
  · simp
  · simp only [forall_const, if_true]
    rw [Finset.sum_comm]
    simp only [Finset.sum_ite_eq, Finset.mem_range, Fin.is_lt, if_true]
    simp

/-- the twelve components -/
theorem count_all (d e : Bool) (P : Prop) [Decidable P] :
    ∑ i ∈ Finset.range (if d then 4 else 1), ∑ j ∈ Finset.range (if e then 3 else 1), ∑ id : Fin 4, ∑ ic : Fin 3, (if P ∧ (d = true → id.val = i) ∧ (e = true → ic.val = j) then (1 : ℝ) else 0) =
      if P then 12 else 0 := by
  by_cases hP : P
  · have : ∀ (a b : Prop) [Decidable a] [Decidable b], (if P ∧ a ∧ b then (1 : ℝ) else 0) = (if a then 1 else 0) * (if b then 1 else 0) := by
      intro a b _ _
      by_cases ha : a <;> by_cases hb : b <;> simp [hP, ha, hb]
    simp only [this, ← Finset.mul_sum, ← Finset.sum_mul]
    rw [count_spin, count_col, if_pos hP]
    norm_num
  · simp [hP]

theorem normSq_source {nt : Rnd} (hk : known nt) (d e : Bool) (L ori : Coords) (tins : Int) (draw : Nat → Nat → ℚ) (i j : Nat) (c : Coords) (id : Fin 4) (ic : Fin 3) :
    normSq (specSource d e L ori tins nt draw i j c id ic) = if onSlice L ori tins c ∧ (d = true → id.val = i) ∧ (e = true → ic.val = j) then 1 else 0 := by
  unfold specSource
  split
  · exact normSq_noise hk _ _
  · simp

section
variable {g : Geo} (ok : g.Ok)
include ok

theorem norm2_sites (sched : Nat → Nat → List Nat) (hl : ∀ rk, Reduce.Legal (sched rk)) (s : Fld) : norm2 g sched s = ∑ c ∈ box g.L, ∑ id, ∑ ic, normSq (glob g s c id ic) := by
  unfold norm2
  refine reduce_sites ok sched hl _ _ fun rk hrk i hi x hx => ?_
  have hs := GForce.rank_site ok hrk hi hx
  unfold glob
  rw [hs]
  rfl

/-- **C74**.  Stochastic sources.  For every kind of noise the program has, on any grid of ranks, the sources are generated, and that of spin `isp` and colour `icol` has, at
each point of the slice, the noise drawn for the number that the point has in the whole lattice (so it is the same on every grid), in the diluted component only; it is zero elsewhere.  The norm is twelve times
the number of points, whatever the dilution. -/
theorem C74_source (dilSpi dilCol : Bool) (jc : Coords) (ji : Nat) (sched : Nat → Nat → List Nat) {ori : Coords} (ho : ori ∈ box g.L) (tins : Int) {nt : Rnd} (hk : known nt) (draw : Nat → Nat → ℚ)
    (hd : ∀ x i, 0 ≤ draw x i ∧ draw x i < 1) :
    ∃ sp norm, generate_original_source ⟨true, dilSpi, dilCol⟩ g jc ji sched ori tins nt draw = some (sp, norm) ∧
      (∀ isp < (if dilSpi then 4 else 1), ∀ icol < (if dilCol then 3 else 1), ∀ c ∈ box g.L,
        glob g (sp (so_sp_col_ind (if dilCol then 3 else 1) isp icol)) c = specSource dilSpi dilCol g.L ori tins nt draw isp icol c) ∧
      ((∀ rk, Reduce.Legal (sched rk)) → norm = 12 * ((box g.L).filter (fun c => onSlice g.L ori tins c)).card) := by
  unfold generate_original_source
  rw [if_neg (by simp)]
  have hall : ∀ rk < g.nranks, ∀ i < g.locVol, (siteSource ⟨true, dilSpi, dilCol⟩ g jc ji ori tins nt draw rk i).isSome := by
    intro rk hrk i hi
    obtain ⟨c, ⟨h1, h2⟩, -⟩ := C02_bijective g ok rk i hrk hi
    have h3 := (C02_rank_and_loclx g ok c h1).2.2.2.1
    rw [h2] at h3
    rw [siteSource_stoch ok dilSpi dilCol jc ji ho tins nt draw hd hrk hi h3 (mem_box.2 h1), if_pos hk]
    split <;> rfl
  rw [if_pos hall]
  refine ⟨_, _, rfl, ?_⟩
  have hval : ∀ isp < (if dilSpi then 4 else 1), ∀ icol < (if dilCol then 3 else 1), ∀ c ∈ box g.L,
      glob g (fun rk ivol =>
        let s := (siteSource ⟨true, dilSpi, dilCol⟩ g jc ji ori tins nt draw rk ivol).getD 0
        if so_sp_col_ind (if dilCol then 3 else 1) isp icol = 0 then s else
          diluteSite ⟨true, dilSpi, dilCol⟩ (so_sp_col_ind (if dilCol then 3 else 1) isp icol / (if dilCol then 3 else 1)) (so_sp_col_ind (if dilCol then 3 else 1) isp icol % (if dilCol then 3 else 1)) s) c =
        specSource dilSpi dilCol g.L ori tins nt draw isp icol c := by
    intro isp hisp icol hicol c hc
    obtain ⟨rk, i, hrk, hi, -, hx, hG⟩ := lxSite ok hc
    rw [hG]
    simp only
    have e := siteSource_stoch ok dilSpi dilCol jc ji ho tins nt draw hd hrk hi hx hc
    rw [if_pos hk] at e
    rw [e]
    generalize hn : (if dilCol = true then 3 else 1) = n at hicol
    have hn0 : 0 < n := by rw [← hn]; split <;> omega
    have e1 : so_sp_col_ind n isp icol / n = isp := by
      unfold so_sp_col_ind
      rw [Nat.add_mul_div_left _ _ hn0, Nat.div_eq_of_lt hicol, Nat.zero_add]
    have e2 : so_sp_col_ind n isp icol % n = icol := by
      unfold so_sp_col_ind
      rw [Nat.add_mul_mod_self_left, Nat.mod_eq_of_lt hicol]
    rw [e1, e2]
    funext id ic
    by_cases hs : onSlice g.L ori tins c
    · rw [if_pos hs, Option.getD_some]
      by_cases h0 : so_sp_col_ind n isp icol = 0
      · rw [if_pos h0]
        unfold so_sp_col_ind at h0
        have hz : icol = 0 := by omega
        have hz2 : isp = 0 := by
          have : n * isp = 0 := by omega
          rcases Nat.mul_eq_zero.1 this with h | h <;> omega
        unfold specSource
        simp only [hs, true_and, hz, hz2, Fin.val_eq_zero_iff]
        by_cases h1 : (dilSpi = true → id = 0) ∧ (dilCol = true → ic = 0)
        · rw [if_pos h1, if_pos h1]
          congr 1
          · cases dilSpi <;> simp_all
          · cases dilCol <;> simp_all
        · rw [if_neg h1, if_neg h1]
      · rw [if_neg h0]
        unfold diluteSite specSource
        simp only [hs, true_and]
        have c1 : (id.val = isp ∨ ¬ dilSpi = true) ↔ (dilSpi = true → id.val = isp) := by cases dilSpi <;> simp
        have c2 : (ic.val = icol ∨ ¬ dilCol = true) ↔ (dilCol = true → ic.val = icol) := by cases dilCol <;> simp
        simp only [c1, c2]
        congr 1
        rw [if_pos]
        constructor
        · intro h; simp [h]
        · intro h; simp [h]
    · rw [if_neg hs, Option.getD_some]
      unfold specSource diluteSite
      simp [hs]
      split <;> rfl
  refine ⟨hval, fun hl => ?_⟩
  rw [fold2]
  simp only [norm2_sites ok sched hl]
  have : ∀ i ∈ Finset.range (Pars.nsoSpi ⟨true, dilSpi, dilCol⟩), ∀ j ∈ Finset.range (Pars.nsoCol ⟨true, dilSpi, dilCol⟩),
      ∑ c ∈ box g.L, ∑ id, ∑ ic, normSq (glob g (fun rk ivol =>
        let s := (siteSource ⟨true, dilSpi, dilCol⟩ g jc ji ori tins nt draw rk ivol).getD 0
        if so_sp_col_ind (if dilCol then 3 else 1) i j = 0 then s else
          diluteSite ⟨true, dilSpi, dilCol⟩ (so_sp_col_ind (if dilCol then 3 else 1) i j / (if dilCol then 3 else 1)) (so_sp_col_ind (if dilCol then 3 else 1) i j % (if dilCol then 3 else 1)) s) c id ic) =
      ∑ c ∈ box g.L, ∑ id : Fin 4, ∑ ic : Fin 3, if onSlice g.L ori tins c ∧ (dilSpi = true → id.val = i) ∧ (dilCol = true → ic.val = j) then (1 : ℝ) else 0 := by
    intro i hi j hj
    refine Finset.sum_congr rfl fun c hc => ?_
    rw [hval i (Finset.mem_range.1 hi) j (Finset.mem_range.1 hj) c hc]
    simp only [normSq_source hk]
  refine (Finset.sum_congr rfl fun i hi => Finset.sum_congr rfl fun j hj => this i hi j hj).trans ?_
  simp only [Finset.sum_comm (t := box g.L)]
  have := fun c => count_all dilSpi dilCol (onSlice g.L ori tins c)
  refine (Finset.sum_congr rfl fun c _ => this c).trans ?_
  rw [Finset.card_filter]
  push_cast
  rw [Finset.mul_sum]
  refine Finset.sum_congr rfl fun c _ => ?_
  split <;> simp

end

end

end Nissa.Src
