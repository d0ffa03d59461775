import Verif.Ib.PropsSource5

/-! # C74: the contraction from a stochastic source, averaged on the noise, is the average of the contractions from the points -/

set_option linter.all false

namespace Nissa.Src
open Nissa.Lx Nissa.Sten Nissa.Su3f Nissa.Gauge Nissa.Gamma Nissa.StD Nissa.Wilson Nissa.Contr Nissa.Vertex Nissa.Sitmo Matrix Complex

noncomputable section

/-- the field given by a linear propagator on a source: `K c y id ic` is what the propagator gives at `c`, from the source equal to 1 in the component `id`, `ic` at `y` -/
def response (L : Coords) (K : Coords → Coords → Fin 4 → Fin 3 → SpCol) (s : Coords → SpCol) (c : Coords) : SpCol := ∑ y ∈ box L, ∑ id, ∑ ic, s y id ic • K c y id ic

/-- points and components -/
def comps (L : Coords) : Finset (Coords × Fin 4 × Fin 3) := box L ×ˢ Finset.univ

theorem sum_comps {A : Type} [AddCommMonoid A] (L : Coords) (F : Coords × Fin 4 × Fin 3 → A) : ∑ p ∈ comps L, F p = ∑ y ∈ box L, ∑ id, ∑ ic, F (y, id, ic) := by
  unfold comps
  rw [Finset.sum_product]
  refine Finset.sum_congr rfl fun y _ => ?_
  rw [Fintype.sum_prod_type]

theorem response_apply (L : Coords) (K : Coords → Coords → Fin 4 → Fin 3 → SpCol) (s : Coords → SpCol) (c : Coords) (k : Fin 4) (a : Fin 3) :
    response L K s c k a = ∑ p ∈ comps L, s p.1 p.2.1 p.2.2 * K c p.1 p.2.1 p.2.2 k a := by
  rw [sum_comps]
  unfold response
  simp only [Finset.sum_apply, Pi.smul_apply, smul_eq_mul]

/-- the product of two propagators from stochastic sources, averaged -/
theorem pair_average {M : Nat} (hM : 0 < M) (dilSpi dilCol : Bool) {L ori : Coords} (tins : Int) {nt : Rnd} (hn : nt = .z2 ∨ nt = .z4) (j i : Nat)
    (K1 K2 : Coords → Coords → Fin 4 → Fin 3 → SpCol) (c : Coords) (k l : Fin 4) (a : Fin 3) :
    ∑ b : Fin (if dilCol then 3 else 1), E (fun w : Draws M (vol L) => star (response L K1 (specSource dilSpi dilCol L ori tins nt (asDraw w) j b) c k a) * response L K2 (specSource dilSpi dilCol L ori tins nt (asDraw w) i b) c l a) =
      ∑ y ∈ (box L).filter (fun y => onSlice L ori tins y), ∑ id : Fin 4, ∑ id' : Fin 4, ∑ ic : Fin 3,
        if (if dilSpi then id.val = j ∧ id'.val = i else id = id') then star (K1 c y id ic k a) * K2 c y id' ic l a else 0 := by
  have e : ∀ b : Fin (if dilCol then 3 else 1), E (fun w : Draws M (vol L) => star (response L K1 (specSource dilSpi dilCol L ori tins nt (asDraw w) j b) c k a) * response L K2 (specSource dilSpi dilCol L ori tins nt (asDraw w) i b) c l a) =
      ∑ p ∈ comps L, ∑ q ∈ comps L, (star (K1 c p.1 p.2.1 p.2.2 k a) * K2 c q.1 q.2.1 q.2.2 l a) *
        E (fun w : Draws M (vol L) => star (specSource dilSpi dilCol L ori tins nt (asDraw w) j b p.1 p.2.1 p.2.2) * specSource dilSpi dilCol L ori tins nt (asDraw w) i b q.1 q.2.1 q.2.2) := by
    intro b
    simp only [← E_mul, ← E_sum]
    congr 1
    funext w
    rw [response_apply, response_apply, star_sum, Finset.sum_mul_sum]
    refine Finset.sum_congr rfl fun p _ => Finset.sum_congr rfl fun q _ => ?_
    rw [star_mul]
    ring
  rw [Finset.sum_congr rfl fun b _ => e b, Finset.sum_comm]
  have e2 : ∀ p ∈ comps L, ∑ b : Fin (if dilCol then 3 else 1), ∑ q ∈ comps L, (star (K1 c p.1 p.2.1 p.2.2 k a) * K2 c q.1 q.2.1 q.2.2 l a) *
        E (fun w : Draws M (vol L) => star (specSource dilSpi dilCol L ori tins nt (asDraw w) j b p.1 p.2.1 p.2.2) * specSource dilSpi dilCol L ori tins nt (asDraw w) i b q.1 q.2.1 q.2.2) =
      ∑ q ∈ comps L, (star (K1 c p.1 p.2.1 p.2.2 k a) * K2 c q.1 q.2.1 q.2.2 l a) *
        (if onSlice L ori tins p.1 ∧ p.1 = q.1 ∧ p.2.2 = q.2.2 ∧ (if dilSpi then p.2.1.val = j ∧ q.2.1.val = i else p.2.1 = q.2.1) then 1 else 0) := by
    intro p hp
    rw [Finset.sum_comm]
    refine Finset.sum_congr rfl fun q hq => ?_
    rw [← Finset.mul_sum]
    have h1 : p.1 ∈ box L := (Finset.mem_product.1 hp).1
    have h2 : q.1 ∈ box L := (Finset.mem_product.1 hq).1
    rw [C74_complete hM dilSpi dilCol tins hn j i h1 h2]
  rw [Finset.sum_congr rfl e2, sum_comps, Finset.sum_filter]
  refine Finset.sum_congr rfl fun y hy => ?_
  by_cases hs : onSlice L ori tins y
  · rw [if_pos hs]
    refine Finset.sum_congr rfl fun id _ => ?_
    rw [Finset.sum_comm (s := (Finset.univ : Finset (Fin 4)))]
    refine Finset.sum_congr rfl fun ic _ => ?_
    rw [sum_comps, Finset.sum_eq_single y]
    · refine Finset.sum_congr rfl fun id' _ => ?_
      rw [Finset.sum_eq_single ic]
      · simp only [hs, true_and]
        split <;> simp
      · intro b _ hb
        rw [if_neg (fun h => hb h.2.2.1.symm), mul_zero]
      · intro h; exact absurd (Finset.mem_univ _) h
    · intro y' _ hne
      refine Finset.sum_eq_zero fun id' _ => Finset.sum_eq_zero fun ic' _ => ?_
      rw [if_neg (fun h => hne h.2.1.symm), mul_zero]
    · intro h; exact absurd hy h
  · rw [if_neg hs]
    refine Finset.sum_eq_zero fun id _ => Finset.sum_eq_zero fun ic _ => Finset.sum_eq_zero fun q _ => ?_
    rw [if_neg (fun h => hs h.1), mul_zero]

/-- sum on the components with fixed spins -/
theorem pick (j i : Fin 4) (F : Fin 4 → Fin 4 → ℂ) : ∑ id : Fin 4, ∑ id' : Fin 4, (if id.val = j.val ∧ id'.val = i.val then F id id' else 0) = F j i := by
  rw [Finset.sum_eq_single j, Finset.sum_eq_single i]
  · simp
  · intro b _ hb; rw [if_neg]; rintro ⟨-, h⟩; exact hb (Fin.ext h)
  · simp
  · intro b _ hb
    refine Finset.sum_eq_zero fun id' _ => ?_
    rw [if_neg]; rintro ⟨h, -⟩; exact hb (Fin.ext h)
  · simp

theorem pos5_eq (i : Fin 4) : (baseGamma 5).pos i = i := dense5_pos i

theorem entr5_sq (i : Fin 4) : (baseGamma 5).entr i * (baseGamma 5).entr i = 1 := by
  unfold baseGamma
  rw [dif_pos (by decide)]
  show GaussianInt.toComplex ((table 5).entr i) * GaussianInt.toComplex ((table 5).entr i) = 1
  rw [← map_mul]
  have : (table 5).entr i * (table 5).entr i = 1 := by revert i; decide
  rw [this, map_one]

section
variable {g : Geo} (ok : g.Ok)
include ok

/-- average of the trace at a point -/
theorem trace_average {M : Nat} (hM : 0 < M) (dilSpi dilCol : Bool) {ori : Coords} (tins : Int) {nt : Rnd} (hn : nt = .z2 ∨ nt = .z4) (so si : Fin 19) (h5 : dilSpi = false → so = 5)
    (K1 K2 : Coords → Coords → Fin 4 → Fin 3 → SpCol) (Q1 Q2 : Draws M (vol g.L) → QProp) (P1 P2 : Coords → QProp) {c : Coords}
    (hQ1 : ∀ w, ∀ i < (if dilSpi then 4 else 1), ∀ b < (if dilCol then 3 else 1), glob g (Q1 w (so_sp_col_ind (if dilCol then 3 else 1) i b)) c = response g.L K1 (specSource dilSpi dilCol g.L ori tins nt (asDraw w) i b) c)
    (hQ2 : ∀ w, ∀ i < (if dilSpi then 4 else 1), ∀ b < (if dilCol then 3 else 1), glob g (Q2 w (so_sp_col_ind (if dilCol then 3 else 1) i b)) c = response g.L K2 (specSource dilSpi dilCol g.L ori tins nt (asDraw w) i b) c)
    (hP1 : ∀ y ∈ box g.L, ∀ i : Fin 4, ∀ b : Fin 3, glob g (P1 y (so_sp_col_ind 3 i b)) c = K1 c y i b) (hP2 : ∀ y ∈ box g.L, ∀ i : Fin 4, ∀ b : Fin 3, glob g (P2 y (so_sp_col_ind 3 i b)) c = K2 c y i b) :
    E (fun w => mesSpec g (if dilSpi then 4 else 1) (if dilCol then 3 else 1) so si (Q1 w) (Q2 w) c) =
      ∑ y ∈ (box g.L).filter (fun y => onSlice g.L ori tins y), mesSpec g 4 3 so si (P1 y) (P2 y) c := by
  have hR : ∀ y ∈ box g.L, mesSpec g 4 3 so si (P1 y) (P2 y) c = ∑ i : Fin 4, ∑ b : Fin 3, ∑ k : Fin 4, (∑ a, star (K1 c y ((baseGamma so).pos i) b k a) * K2 c y i b ((baseGamma si).pos k) a) *
      ((baseGamma so).entr i * (baseGamma 5).entr ((baseGamma so).pos i) * ((baseGamma 5).entr k * (baseGamma si).entr k)) := by
    intro y hy
    unfold mesSpec
    rw [if_neg (by decide), mesTrace_sum]
    simp only [hP1 y hy, hP2 y hy]
  rw [Finset.sum_congr rfl fun y hy => hR y (Finset.mem_filter.1 hy).1]
  have hpa := fun (j i : Nat) (k l : Fin 4) (a : Fin 3) => pair_average hM dilSpi dilCol (L := g.L) (ori := ori) tins hn j i K1 K2 c k l a
  cases dilSpi
  · have hso := h5 rfl
    subst hso
    have e : ∀ w, mesSpec g (if false = true then 4 else 1) (if dilCol then 3 else 1) 5 si (Q1 w) (Q2 w) c = ∑ k : Fin 4, ∑ a, ((baseGamma 5).entr k * (baseGamma si).entr k) * ∑ b : Fin (if dilCol then 3 else 1),
        star (response g.L K1 (specSource false dilCol g.L ori tins nt (asDraw w) 0 b) c k a) * response g.L K2 (specSource false dilCol g.L ori tins nt (asDraw w) 0 b) c ((baseGamma si).pos k) a := by
      intro w
      unfold mesSpec
      rw [if_pos (by rfl), mesTrace1_sum, Finset.sum_comm]
      refine Finset.sum_congr rfl fun k _ => ?_
      simp only [Finset.mul_sum, Finset.sum_mul]
      rw [Finset.sum_comm]
      refine Finset.sum_congr rfl fun a _ => Finset.sum_congr rfl fun b _ => ?_
      rw [hQ1 w 0 (by simp) b b.isLt, hQ2 w 0 (by simp) b b.isLt]
      ring
    simp only [e]
    rw [E_sum]
    simp only [E_sum, E_mul, hpa]
    simp only [Bool.false_eq_true, if_false]
    have d : ∀ (y : Coords) (k : Fin 4) (a : Fin 3), ∑ id : Fin 4, ∑ id' : Fin 4, ∑ ic : Fin 3, (if id = id' then star (K1 c y id ic k a) * K2 c y id' ic ((baseGamma si).pos k) a else 0) =
        ∑ id : Fin 4, ∑ ic : Fin 3, star (K1 c y id ic k a) * K2 c y id ic ((baseGamma si).pos k) a := by
      intro y k a
      refine Finset.sum_congr rfl fun id _ => ?_
      rw [Finset.sum_comm]
      refine Finset.sum_congr rfl fun ic _ => ?_
      simp
    simp only [d, pos5_eq, entr5_sq, one_mul]
    simp only [Finset.mul_sum, Finset.sum_mul]
    rw [Finset.sum_congr rfl fun k _ => Finset.sum_comm, Finset.sum_comm]
    refine Finset.sum_congr rfl fun y _ => ?_
    rw [Finset.sum_congr rfl fun k _ => Finset.sum_comm, Finset.sum_comm]
    refine Finset.sum_congr rfl fun id _ => ?_
    rw [Finset.sum_congr rfl fun k _ => Finset.sum_comm, Finset.sum_comm]
    refine Finset.sum_congr rfl fun ic _ => Finset.sum_congr rfl fun k _ => Finset.sum_congr rfl fun a _ => by ring
  · have e : ∀ w, mesSpec g (if true = true then 4 else 1) (if dilCol then 3 else 1) so si (Q1 w) (Q2 w) c = ∑ i : Fin 4, ∑ k : Fin 4, ∑ a,
        ((baseGamma so).entr i * (baseGamma 5).entr ((baseGamma so).pos i) * ((baseGamma 5).entr k * (baseGamma si).entr k)) * ∑ b : Fin (if dilCol then 3 else 1),
        star (response g.L K1 (specSource true dilCol g.L ori tins nt (asDraw w) ((baseGamma so).pos i).val b) c k a) * response g.L K2 (specSource true dilCol g.L ori tins nt (asDraw w) i.val b) c ((baseGamma si).pos k) a := by
      intro w
      unfold mesSpec
      rw [if_neg (by decide), mesTrace_sum]
      refine Finset.sum_congr rfl fun i _ => ?_
      rw [Finset.sum_comm]
      refine Finset.sum_congr rfl fun k _ => ?_
      simp only [Finset.mul_sum, Finset.sum_mul]
      rw [Finset.sum_comm]
      refine Finset.sum_congr rfl fun a _ => Finset.sum_congr rfl fun b _ => ?_
      rw [hQ1 w _ (by simp) b b.isLt, hQ2 w _ (by simp) b b.isLt]
      ring
    rw [funext e]
    rw [E_sum]
    simp only [E_sum, E_mul, hpa]
    simp only [if_true]
    have d : ∀ (y : Coords) (i k : Fin 4) (a : Fin 3), ∑ id : Fin 4, ∑ id' : Fin 4, ∑ ic : Fin 3, (if id.val = ((baseGamma so).pos i).val ∧ id'.val = i.val then star (K1 c y id ic k a) * K2 c y id' ic ((baseGamma si).pos k) a else 0) =
        ∑ ic : Fin 3, star (K1 c y ((baseGamma so).pos i) ic k a) * K2 c y i ic ((baseGamma si).pos k) a := by
      intro y i k a
      rw [← pick ((baseGamma so).pos i) i (fun id id' => ∑ ic : Fin 3, star (K1 c y id ic k a) * K2 c y id' ic ((baseGamma si).pos k) a)]
      refine Finset.sum_congr rfl fun id _ => Finset.sum_congr rfl fun id' _ => ?_
      split <;> simp
    simp only [d]
    rw [Finset.sum_comm (s := (box g.L).filter _)]
    refine Finset.sum_congr rfl fun i _ => ?_
    simp only [Finset.mul_sum, Finset.sum_mul]
    rw [Finset.sum_congr rfl fun k _ => Finset.sum_comm, Finset.sum_comm]
    refine Finset.sum_congr rfl fun y _ => ?_
    rw [Finset.sum_congr rfl fun k _ => Finset.sum_comm, Finset.sum_comm]
    refine Finset.sum_congr rfl fun b _ => Finset.sum_congr rfl fun k _ => Finset.sum_congr rfl fun a _ => by ring

omit ok in
theorem response_congr {L : Coords} (K : Coords → Coords → Fin 4 → Fin 3 → SpCol) {s s' : Coords → SpCol} (h : ∀ y ∈ box L, s y = s' y) (c : Coords) : response L K s c = response L K s' c := by
  unfold response
  refine Finset.sum_congr rfl fun y hy => ?_
  rw [h y hy]

/-- **C74**.  The meson contraction of the program from stochastic sources (Z2 or Z4, with any dilution, on any slice or on the whole lattice; without spin dilution for the
pseudoscalar source only), averaged on the noise, is the average on the points of the source of the full trace of the two propagators from that point: the norm and the dilution
drop out.  `K1` and `K2` are any two linear propagators, `Q1 w` and `Q2 w` what they give on the sources generated with the random numbers `w`, `P1 y` and `P2 y` what they give from the
twelve point sources at `y`. -/
theorem C74_estimator {M : Nat} (hM : 0 < M) (dilSpi dilCol : Bool) (jc : Coords) (ji : Nat) (sched : Nat → Nat → List Nat) (hl : ∀ rk, Reduce.Legal (sched rk)) {ori : Coords} (ho : ori ∈ box g.L) {tins : Int}
    (htins : tins = -1 ∨ 0 ≤ tins ∧ tins < g.L 0) {nt : Rnd} (hn : nt = .z2 ∨ nt = .z4) (K1 K2 : Coords → Coords → Fin 4 → Fin 3 → SpCol)
    (Sp : Draws M (vol g.L) → QProp) (nrm : Draws M (vol g.L) → ℝ) (hSp : ∀ w, generate_original_source ⟨true, dilSpi, dilCol⟩ g jc ji sched ori tins nt (asDraw w) = some (Sp w, nrm w))
    (Q1 Q2 : Draws M (vol g.L) → QProp) (P1 P2 : Coords → QProp)
    (hQ1 : ∀ w, ∀ i < (if dilSpi then 4 else 1), ∀ b < (if dilCol then 3 else 1), ∀ c ∈ box g.L, glob g (Q1 w (so_sp_col_ind (if dilCol then 3 else 1) i b)) c = response g.L K1 (glob g (Sp w (so_sp_col_ind (if dilCol then 3 else 1) i b))) c)
    (hQ2 : ∀ w, ∀ i < (if dilSpi then 4 else 1), ∀ b < (if dilCol then 3 else 1), ∀ c ∈ box g.L, glob g (Q2 w (so_sp_col_ind (if dilCol then 3 else 1) i b)) c = response g.L K2 (glob g (Sp w (so_sp_col_ind (if dilCol then 3 else 1) i b))) c)
    (hP1 : ∀ y ∈ box g.L, ∀ i : Fin 4, ∀ b : Fin 3, ∀ c ∈ box g.L, glob g (P1 y (so_sp_col_ind 3 i b)) c = K1 c y i b) (hP2 : ∀ y ∈ box g.L, ∀ i : Fin 4, ∀ b : Fin 3, ∀ c ∈ box g.L, glob g (P2 y (so_sp_col_ind 3 i b)) c = K2 c y i b)
    (gl : List (Fin 19 × Fin 19)) (res : Draws M (vol g.L) → Nat → ℂ)
    (hres : ∀ w, compute_mes2pt_contr_classic g jc sched (if dilSpi then 4 else 1) (if dilCol then 3 else 1) (ori 0) gl (nrm w) (nrm w) (Q1 w) (Q2 w) (fun _ => 0) = some (res w))
    (ig : Nat) (so si : Fin 19) (hig : gl[ig]? = some (so, si)) (t : Nat) (ht : t < g.L 0) :
    E (fun w => res w (t + g.L 0 * ig)) = (1 / (((box g.L).filter (fun y => onSlice g.L ori tins y)).card : ℂ)) *
      ∑ y ∈ (box g.L).filter (fun y => onSlice g.L ori tins y), ∑ c ∈ (box g.L).filter (fun c => c 0 = (t + ori 0) % g.L 0), mesSpec g 4 3 so si (P1 y) (P2 y) c := by
  have hk : known nt := by unfold known; rcases hn with h | h <;> simp [h]
  have hsrc : ∀ w, nrm w = 12 * ((box g.L).filter (fun c => onSlice g.L ori tins c)).card ∧ ∀ i < (if dilSpi then 4 else 1), ∀ b < (if dilCol then 3 else 1), ∀ c ∈ box g.L,
      glob g (Sp w (so_sp_col_ind (if dilCol then 3 else 1) i b)) c = specSource dilSpi dilCol g.L ori tins nt (asDraw w) i b c := by
    intro w
    obtain ⟨sp, n, h1, h2, h3⟩ := C74_source ok dilSpi dilCol jc ji sched ho tins hk (asDraw w) (asDraw_range hM w)
    rw [hSp w] at h1
    obtain ⟨rfl, rfl⟩ : Sp w = sp ∧ nrm w = n := by simpa using h1
    exact ⟨h3 hl, h2⟩
  have hne : (((box g.L).filter (fun y => onSlice g.L ori tins y)).card : ℝ) ≠ 0 := by
    rw [C74_points ho]
    have a := L_pos ok 0
    have b := L_pos ok 1
    have c := L_pos ok 2
    have d := L_pos ok 3
    rcases htins with h | h
    · rw [if_pos h]; positivity
    · rw [if_neg (by omega), if_pos h]; positivity
  have hs : (if dilSpi = true then 4 else 1) = 4 ∨ (if dilSpi = true then 4 else 1) = 1 := by cases dilSpi <;> simp
  have h5 : dilSpi = false → so = 5 := by
    intro h
    by_contra h'
    have w : Draws M (vol g.L) := fun _ => ⟨0, by omega⟩
    have := (C63_mes2pt_classic ok jc sched hl (if dilSpi then 4 else 1) (if dilCol then 3 else 1) (ori 0) hs (mem_box.1 ho 0) gl (nrm w) (nrm w) (Q1 w) (Q2 w) (fun _ => 0)).1.2
      ⟨by simp [h], (so, si), List.mem_of_getElem? hig, h'⟩
    rw [hres w] at this
    simp at this
  have hval : ∀ w, res w (t + g.L 0 * ig) = (1 / (((box g.L).filter (fun y => onSlice g.L ori tins y)).card : ℂ)) *
      ∑ c ∈ (box g.L).filter (fun c => c 0 = (t + ori 0) % g.L 0), mesSpec g (if dilSpi then 4 else 1) (if dilCol then 3 else 1) so si (Q1 w) (Q2 w) c := by
    intro w
    rw [((C63_mes2pt_classic ok jc sched hl (if dilSpi then 4 else 1) (if dilCol then 3 else 1) (ori 0) hs (mem_box.1 ho 0) gl (nrm w) (nrm w) (Q1 w) (Q2 w) (fun _ => 0)).2 _ (hres w)).1 ig so si hig t ht, zero_add]
    congr 1
    rw [(hsrc w).1, Real.sqrt_mul_self (mul_nonneg (by norm_num) (Nat.cast_nonneg _))]
    push_cast
    have : (((box g.L).filter (fun y => onSlice g.L ori tins y)).card : ℂ) ≠ 0 := by exact_mod_cast hne
    field_simp
  rw [funext hval, E_mul, E_sum]
  congr 1
  rw [Finset.sum_comm]
  refine Finset.sum_congr rfl fun c hc => ?_
  have hc' := (Finset.mem_filter.1 hc).1
  refine trace_average ok hM dilSpi dilCol tins hn so si h5 K1 K2 Q1 Q2 P1 P2 (fun w i hi b hb => ?_) (fun w i hi b hb => ?_) (fun y hy i b => hP1 y hy i b c hc') (fun y hy i b => hP2 y hy i b c hc')
  · rw [hQ1 w i hi b hb c hc']; exact response_congr K1 (fun y hy => (hsrc w).2 i hi b hb y hy) c
  · rw [hQ2 w i hi b hb c hc']; exact response_congr K2 (fun y hy => (hsrc w).2 i hi b hb y hy) c

end

/-- the hypotheses are met: lattice `8 x 4 x 4 x 6` on 12 ranks, source on the slice at distance 3 from the point (5,1,3,4), Z4 noise, the reals of the drawer, no spin dilution, `g5` and `g0` at the sink,
propagators equal to the identity -/
example : ∃ (Sp : Draws 8 (vol exGeo.L) → QProp) (nrm : Draws 8 (vol exGeo.L) → ℝ) (P : Coords → QProp) (res : Draws 8 (vol exGeo.L) → Nat → ℂ),
    exGeo.Ok ∧ (![5, 1, 3, 4] : Coords) ∈ box exGeo.L ∧ known .z4 ∧
    (∀ (rng : Rng) (pos : W) x i, 0 ≤ siteReal rng pos exGeo.glbVol x i ∧ siteReal rng pos exGeo.glbVol x i < 1) ∧
    (∀ w, generate_original_source ⟨true, false, true⟩ exGeo 0 0 (fun _ n => List.range n) ![5, 1, 3, 4] 3 .z4 (asDraw w) = some (Sp w, nrm w)) ∧
    (∀ w, ∀ i < 1, ∀ b < 3, ∀ c ∈ box exGeo.L, glob exGeo (Sp w (so_sp_col_ind 3 i b)) c =
      response exGeo.L (fun c y i b id ic => if c = y ∧ id = i ∧ ic = b then 1 else 0) (glob exGeo (Sp w (so_sp_col_ind 3 i b))) c) ∧
    (∀ y ∈ box exGeo.L, ∀ i : Fin 4, ∀ b : Fin 3, ∀ c ∈ box exGeo.L, glob exGeo (P y (so_sp_col_ind 3 i b)) c = fun id ic => if c = y ∧ id = i ∧ ic = b then 1 else 0) ∧
    ∀ w, compute_mes2pt_contr_classic exGeo 0 (fun _ n => List.range n) 1 3 5 [(5, 5), (5, 4)] (nrm w) (nrm w) (Sp w) (Sp w) (fun _ => 0) = some (res w) := by
  have ok : exGeo.Ok := by decide
  have ho : (![5, 1, 3, 4] : Coords) ∈ box exGeo.L := mem_box.2 (by decide)
  have hl : ∀ rk : Nat, Reduce.Legal ((fun _ n => List.range n : Nat → Nat → List Nat) rk) := fun rk n => List.Perm.refl _
  choose Sp nrm h1 h2 h3 using fun w : Draws 8 (vol exGeo.L) => C74_source ok false true 0 0 (fun _ n => List.range n) ho 3 (nt := .z4) (by unfold known; simp) (asDraw w) (asDraw_range (by norm_num) w)
  choose P n2 h4 h5 h6 using fun y : {y // y ∈ box exGeo.L} => C74_point ok 0 0 (fun _ n => List.range n) y.2 3 .z4 (fun _ _ => 0)
  have hr : ∀ w, ∃ r, compute_mes2pt_contr_classic exGeo 0 (fun _ n => List.range n) 1 3 5 [(5, 5), (5, 4)] (nrm w) (nrm w) (Sp w) (Sp w) (fun _ => 0) = some r := by
    intro w
    rw [← Option.ne_none_iff_exists']
    intro h
    have := ((C63_mes2pt_classic ok 0 (fun _ n => List.range n) hl 1 3 5 (Or.inr rfl) (by decide) [(5, 5), (5, 4)] (nrm w) (nrm w) (Sp w) (Sp w) (fun _ => 0)).1.1 h).2
    simp at this
  choose res hres using hr
  refine ⟨Sp, nrm, fun y => if h : y ∈ box exGeo.L then P ⟨y, h⟩ else 0, res, ok, ho, by unfold known; simp, fun rng pos x i => siteReal_range rng pos exGeo.glbVol x i, h1, ?_, ?_, hres⟩
  · intro w i hi b hb c hc
    unfold response
    rw [Finset.sum_eq_single c]
    · funext id ic
      simp only [Finset.sum_apply, Pi.smul_apply, smul_eq_mul, true_and]
      rw [Finset.sum_eq_single id, Finset.sum_eq_single ic]
      · simp
      · intro b _ hb; simp [hb.symm]
      · simp
      · intro b _ hb; refine Finset.sum_eq_zero fun x _ => ?_; simp [hb.symm]
      · simp
    · intro y _ hy
      funext id ic
      simp [hy.symm]
    · intro h; exact absurd hc h
  · intro y hy i b c hc
    simp only [hy, dif_pos]
    funext id ic
    exact h5 ⟨y, hy⟩ i b c hc id ic

end

end Nissa.Src
