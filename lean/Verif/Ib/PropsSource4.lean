import Verif.Ib.PropsSource3

/-! # C74: origin of the hit, local insertions -/

set_option linter.all false

namespace Nissa.Src
open Nissa.Lx Nissa.Sten Nissa.Su3f Nissa.Gauge Nissa.Gamma Nissa.StD Nissa.Wilson Nissa.Contr Nissa.Vertex Nissa.Sitmo Matrix Complex

noncomputable section

theorem trunc_spec {u : ℚ} (h0 : 0 ≤ u) (h1 : u < 1) {L : Nat} (hL : 0 < L) :
    (Int.tdiv (u * (L : ℚ)).num (u * (L : ℚ)).den).toNat < L ∧ (((Int.tdiv (u * (L : ℚ)).num (u * (L : ℚ)).den).toNat : Nat) : ℚ) ≤ u * L ∧
      u * L < ((Int.tdiv (u * (L : ℚ)).num (u * (L : ℚ)).den).toNat : Nat) + 1 := by
  have hLq : (0 : ℚ) < L := by exact_mod_cast hL
  have hn : 0 ≤ (u * (L : ℚ)).num := Rat.num_nonneg.2 (mul_nonneg h0 hLq.le)
  have e : Int.tdiv (u * (L : ℚ)).num (u * (L : ℚ)).den = ⌊u * (L : ℚ)⌋ := by
    rw [Int.tdiv_eq_ediv_of_nonneg hn]
    exact (Rat.floor_def (u * (L : ℚ))).symm
  rw [e]
  have hf : 0 ≤ ⌊u * (L : ℚ)⌋ := Int.floor_nonneg.2 (mul_nonneg h0 hLq.le)
  have hlt : u * (L : ℚ) < L := by nlinarith
  have hfl : ⌊u * (L : ℚ)⌋ < (L : Int) := Int.floor_lt.2 (by exact_mod_cast hlt)
  have ec : (((⌊u * (L : ℚ)⌋).toNat : Nat) : ℚ) = ((⌊u * (L : ℚ)⌋ : Int) : ℚ) := by
    exact_mod_cast congrArg (fun z : Int => (z : ℚ)) (Int.toNat_of_nonneg hf)
  refine ⟨by omega, ?_, ?_⟩
  · rw [ec]; exact Int.floor_le _
  · rw [ec]; exact Int.lt_floor_add_one _

section
variable {g : Geo} (ok : g.Ok)
include ok

/-- **C74**.  The origin of a hit is a point of the lattice, got from four consecutive numbers of the stream, at the first point of the lattice: each coordinate is the integer part of the number times the
side.  So it is the same on every grid, and whether the source is moved or not the stream goes on in the same way. -/
theorem C74_origin (rng : Rng) (doNotShift : Bool) (pos : W) :
    (drawOri g rng doNotShift pos).1 ∈ box g.L ∧ (drawOri g rng doNotShift pos).2 = pos + 4 ∧
      ∀ mu : Dir, let u := siteReal rng (pos + BitVec.ofNat 64 mu.val) (g.L 0 * g.L 1 * g.L 2 * g.L 3) 0 0
        if doNotShift then (drawOri g rng doNotShift pos).1 mu = 0 else ((drawOri g rng doNotShift pos).1 mu : ℚ) ≤ u * g.L mu ∧ u * g.L mu < (drawOri g rng doNotShift pos).1 mu + 1 := by
  have hv : g.glbVol = g.L 0 * g.L 1 * g.L 2 * g.L 3 := by
    simp only [Geo.glbVol, C01_volOfLx]
  have e : ∀ mu : Dir, (drawOri g rng doNotShift pos).1 mu = if doNotShift then 0 else
      (Int.tdiv (siteReal rng (pos + BitVec.ofNat 64 mu.val) g.glbVol 0 0 * (g.L mu : ℚ)).num (siteReal rng (pos + BitVec.ofNat 64 mu.val) g.glbVol 0 0 * (g.L mu : ℚ)).den).toNat := by
    intro mu
    have b0 : pos + BitVec.ofNat 64 0 = pos := by bv_omega
    have b2 : pos + 1#64 + 1#64 = pos + BitVec.ofNat 64 2 := by bv_omega
    have b3 : pos + BitVec.ofNat 64 2 + 1#64 = pos + BitVec.ofNat 64 3 := by bv_omega
    unfold drawOri
    simp only [List.finRange_succ, List.finRange_zero, List.map_nil, List.map_cons, List.foldl_cons, List.foldl_nil]
    fin_cases mu <;> simp [Function.update_of_ne, b2, b3]
  have hr := fun mu : Dir => siteReal_range rng (pos + BitVec.ofNat 64 mu.val) g.glbVol 0 0
  refine ⟨?_, ?_, fun mu => ?_⟩
  · rw [mem_box]
    intro mu
    rw [e mu]
    split
    · exact L_pos ok mu
    · exact (trunc_spec (hr mu).1 (hr mu).2 (L_pos ok mu)).1
  · show pos + 1 + 1 + 1 + 1 = pos + 4
    bv_omega
  · rw [← hv, e mu]
    have := (trunc_spec (hr mu).1 (hr mu).2 (L_pos ok mu)).2
    cases doNotShift
    · simpa using this
    · simp

theorem rel_t_onTime (jc : Coords) {ori : Coords} (ho : ori ∈ box g.L) {t : Int} (ht : -1 ≤ t ∧ t < g.L 0) {rk i : Nat} {c : Coords} (h : glbCoordOfLoclx g (coordOfLx rk g.R) i = some c) (hc : c ∈ box g.L) :
    onTime g jc (coordOfLx rk g.R) i (rel_t g ori t) = decide (onSlice g.L ori t c) := by
  rw [onTime_eq ok jc h, decide_eq_decide]
  unfold rel_t
  by_cases hm : t = -1
  · simp [hm, onSlice]
  · rw [if_pos hm, onSlice_iff (mem_box.1 ho 0) (mem_box.1 hc 0) hm]
    obtain ⟨n, rfl⟩ : ∃ n : Nat, t = n := ⟨t.toNat, by omega⟩
    rw [Int.tmod_eq_emod_of_nonneg (by omega), Int.toNat_natCast]
    have e : ((n : Int) + (ori 0 : Int)) % (g.L 0 : Int) = ((((ori 0 + n) % g.L 0 : Nat)) : Int) := by push_cast; rw [add_comm]
    rw [e]
    constructor
    · rintro (h | h)
      · omega
      · exact ⟨by omega, ht.2, by omega⟩
    · rintro ⟨-, -, h⟩
      right; omega

/-- **C74**.  The insertions acting on each site, at the time `t` after the source: sum of the sources with coefficients, multiplication by a gamma matrix, choice of a colour, choice of the time, phase
`exp(i pi theta x/L)` with `x` the displacement from the source, choice of the point at a given displacement from the source, of a spin, of a colour. -/
theorem C74_insertions (jc : Coords) {ori : Coords} (ho : ori ∈ box g.L) {t : Int} (ht : -1 ≤ t ∧ t < g.L 0) (inp : Fld) (terms : List (ℂ × Fld)) (ig : Fin 19) (n : Nat) (th : Dir → ℝ) {c : Coords} (hc : c ∈ box g.L) :
    glob g (build_source terms) c = (terms.map fun x => x.1 • glob g x.2 c).sum ∧
    glob g (prop_multiply_with_gamma g jc ig inp (rel_t g ori t)) c = (if onSlice g.L ori t c then spinMul (Γ ig) (glob g inp c) else 0) ∧
    (∀ id ic, glob g (prop_multiply_with_color_delta g jc n inp (rel_t g ori t)) c id ic = if onSlice g.L ori t c ∧ ic.val = n then glob g inp c id ic else 0) ∧
    glob g (select_propagator_timeslice g jc inp (rel_t g ori t)) c = (if onSlice g.L ori t c then glob g inp c else 0) ∧
    glob g (phase_prop g jc ori inp (rel_t g ori t) th) c =
      (if onSlice g.L ori t c then Complex.exp (I * (Real.pi * (th 1 * dist g.L ori c 1 / g.L 1 + th 2 * dist g.L ori c 2 / g.L 2 + th 3 * dist g.L ori c 3 / g.L 3) : ℝ)) • glob g inp c else 0) ∧
    glob g (select_position g jc ori inp n) c = (if ∀ mu, dist g.L ori c mu = coordOfLx n g.L mu then glob g inp c else 0) ∧
    (∀ id ic, glob g (select_spin inp n) c id ic = if id.val = n then glob g inp c id ic else 0) ∧
    (∀ id ic, glob g (select_color inp n) c id ic = if ic.val = n then glob g inp c id ic else 0) := by
  obtain ⟨rk, i, hrk, hi, -, hx, hG⟩ := lxSite ok hc
  have hT := rel_t_onTime ok jc ho ht hx hc
  simp only [hG]
  refine ⟨?_, ?_, fun id ic => ?_, ?_, ?_, ?_, fun id ic => ?_, fun id ic => ?_⟩
  · unfold build_source
    rw [foldl_add', zero_add]
  · unfold prop_multiply_with_gamma
    rw [hT, diracSpinColor_eq, Γ_dense]
    by_cases h : onSlice g.L ori t c <;> simp [h]
  · unfold prop_multiply_with_color_delta
    rw [hT]
    by_cases h : onSlice g.L ori t c <;> by_cases h2 : ic.val = n <;> simp [h, h2, Ne.symm]
  · unfold select_propagator_timeslice
    rw [hx, Option.getD_some]
    rw [onTime_eq ok jc hx, decide_eq_decide] at hT
    by_cases hm : t = -1
    · have : rel_t g ori t = -1 := by unfold rel_t; simp [hm]
      have hs : onSlice g.L ori t c := Or.inl hm
      rw [if_neg (by omega), if_pos hs]
    · have e : rel_t g ori t = Int.tmod (t + ori 0) (g.L 0) := by unfold rel_t; rw [if_pos hm]
      have hL : (0 : Int) < g.L 0 := by have := L_pos ok 0; omega
      have h1 : 0 ≤ rel_t g ori t := by rw [e, Int.tmod_eq_emod_of_nonneg (by omega)]; exact Int.emod_nonneg _ (by omega)
      have h2 : rel_t g ori t < g.L 0 := by rw [e]; exact Int.tmod_lt_of_pos _ hL
      rw [if_pos ⟨h1, h2⟩]
      by_cases h : onSlice g.L ori t c
      · have h3 := hT.2 h
        rw [if_pos h, if_neg]
        rcases h3 with h3 | h3
        · omega
        · simpa using h3
      · rw [if_neg h, if_pos]
        intro h3; exact h (hT.1 (Or.inr h3))
  · unfold phase_prop
    simp only [hT, rel_loclx hx (mem_box.1 ho _), List.foldl_cons, List.foldl_nil]
    by_cases h : onSlice g.L ori t c
    · simp only [h, decide_true, if_true]
      congr 1
      have key : ∀ a : ℝ, (⟨Real.cos a, Real.sin a⟩ : ℂ) = Complex.exp (I * (a : ℂ)) := by
        intro a
        rw [mul_comm, Complex.exp_mul_I, ← Complex.ofReal_cos, ← Complex.ofReal_sin]
        apply Complex.ext <;> simp [← Complex.ofReal_cos, ← Complex.ofReal_sin, -Complex.ofReal_cos, -Complex.ofReal_sin]
      rw [key]
      congr 3
      push_cast
      ring
    · simp [h]
  · unfold select_position
    have e : ((List.finRange 4).foldl (fun (o : Bool) mu => o && decide (rel_coord_of_loclx g jc ori rk i mu = coordOfLx n g.L mu)) true) = decide (∀ mu, dist g.L ori c mu = coordOfLx n g.L mu) := by
      have e1 : ∀ mu : Dir, decide (rel_coord_of_loclx g jc ori rk i mu = coordOfLx n g.L mu) = decide (dist g.L ori c mu = coordOfLx n g.L mu) := by
        intro mu
        rw [rel_loclx hx (mem_box.1 ho mu)]
        simp only [decide_eq_decide]
        omega
      simp only [e1]
      rw [Bool.eq_iff_iff, decide_eq_true_eq]
      show ((((true && decide (dist g.L ori c 0 = _)) && decide (dist g.L ori c 1 = _)) && decide (dist g.L ori c 2 = _)) && decide (dist g.L ori c 3 = _)) = true ↔ _
      simp only [Bool.true_and, Bool.and_eq_true, decide_eq_true_eq]
      constructor
      · rintro ⟨⟨⟨a, b⟩, d⟩, f⟩ mu
        fin_cases mu <;> assumption
      · intro h
        exact ⟨⟨⟨h 0, h 1⟩, h 2⟩, h 3⟩
    simp only [e]
    by_cases h : ∀ mu, dist g.L ori c mu = coordOfLx n g.L mu
    · simp [h]
    · simp [h]
  · unfold select_spin
    by_cases h : id.val = n <;> simp [h]
  · unfold select_color
    by_cases h : ic.val = n <;> simp [h]

end

end

end Nissa.Src
