/- C69, second part: the file of the correlators and the measurement loop. -/
import Verif.Measures.PropsTopology
set_option linter.all false

namespace Nissa.Topo
open Nissa.Lx Nissa.A2A Nissa.Layouts Nissa.Fft

/-! ### Order of the points -/

/-- which half of the direction -/
def half (L c : Coords) (mu : Dir) : Nat := if c mu ≥ subSize L mu 0 then 1 else 0

/-- coordinate in the subcube -/
def inHalf (L c : Coords) (mu : Dir) : Nat := c mu - half L c mu * subSize L mu 0

theorem subcubeOf_eq (L c : Coords) : subcubeOf L c = (lxOfCoord (half L c) (fun _ => 2), lxOfCoord (inHalf L c) (fun mu => subSize L mu (half L c mu))) := by
  unfold subcubeOf lxOfCoord mix dirs
  simp only [List.foldl_cons, List.foldl_nil]
  rfl

theorem half_lt (L c : Coords) (mu : Dir) : half L c mu < 2 := by unfold half; split <;> omega

theorem inHalf_lt {L c : Coords} (hL : ∀ mu, 2 ∣ L mu) (hc : ∀ mu, c mu < L mu) (mu : Dir) : inHalf L c mu < subSize L mu (half L c mu) := by
  obtain ⟨k, hk⟩ := hL mu
  have := hc mu
  unfold inHalf half subSize
  simp only [if_true]
  split <;> simp <;> omega

theorem off_eq (L : Coords) (n : Nat) : (List.range n).foldl (fun v i => v + subcubeVol L i) 0 = ∑ i ∈ Finset.range n, subcubeVol L i := by
  induction n with
  | zero => rfl
  | succ n ih => rw [List.range_succ, List.foldl_append, ih, Finset.sum_range_succ]; rfl

theorem subcubeVol_eq (L c : Coords) : subcubeVol L (subcubeOf L c).1 = volOfLx (fun mu => subSize L mu (half L c mu)) := by
  unfold subcubeVol volOfLx
  rw [subcubeOf_eq]
  simp only
  rw [coordOfLx_lxOfCoord (fun d => half_lt L c d)]

theorem el_lt {L c : Coords} (hL : ∀ mu, 2 ∣ L mu) (hc : ∀ mu, c mu < L mu) : (subcubeOf L c).2 < subcubeVol L (subcubeOf L c).1 := by
  rw [subcubeVol_eq]
  have h := lxOfCoord_lt (s := fun mu => subSize L mu (half L c mu)) (inHalf_lt hL hc)
  rw [subcubeOf_eq]
  exact h

theorem cube_lt (L c : Coords) : (subcubeOf L c).1 < 16 := by
  have h := lxOfCoord_lt (s := fun _ => 2) (half_lt L c)
  rw [show volOfLx (fun _ => 2) = 16 by decide] at h
  rw [subcubeOf_eq]
  exact h

theorem off_mono (L : Coords) {a b : Nat} (h : a ≤ b) : ∑ i ∈ Finset.range a, subcubeVol L i ≤ ∑ i ∈ Finset.range b, subcubeVol L i :=
  Finset.sum_le_sum_of_subset (Finset.range_mono h)

theorem topoPos_eq (L c : Coords) : topoPos L c = (subcubeOf L c).2 + ∑ i ∈ Finset.range (subcubeOf L c).1, subcubeVol L i := by
  unfold topoPos; rw [off_eq]

theorem topoPos_bounds {L c : Coords} (hL : ∀ mu, 2 ∣ L mu) (hc : ∀ mu, c mu < L mu) :
    ∑ i ∈ Finset.range (subcubeOf L c).1, subcubeVol L i ≤ topoPos L c ∧ topoPos L c < ∑ i ∈ Finset.range ((subcubeOf L c).1 + 1), subcubeVol L i := by
  have := el_lt hL hc
  rw [topoPos_eq, Finset.sum_range_succ]
  omega

theorem topoPos_inj {L c d : Coords} (hL : ∀ mu, 2 ∣ L mu) (hc : ∀ mu, c mu < L mu) (hd : ∀ mu, d mu < L mu) (h : topoPos L c = topoPos L d) : c = d := by
  have hb := topoPos_bounds hL hc
  have hb' := topoPos_bounds hL hd
  have hcube : (subcubeOf L c).1 = (subcubeOf L d).1 := by
    rcases Nat.lt_trichotomy (subcubeOf L c).1 (subcubeOf L d).1 with h1 | h1 | h1
    · have := off_mono L (show (subcubeOf L c).1 + 1 ≤ (subcubeOf L d).1 from h1); omega
    · exact h1
    · have := off_mono L (show (subcubeOf L d).1 + 1 ≤ (subcubeOf L c).1 from h1); omega
  rw [topoPos_eq, topoPos_eq, hcube] at h
  have hel : (subcubeOf L c).2 = (subcubeOf L d).2 := by omega
  rw [subcubeOf_eq, subcubeOf_eq] at hcube hel
  simp only at hcube hel
  have hh : half L c = half L d := lxOfCoord_inj (fun mu => half_lt L c mu) (fun mu => half_lt L d mu) hcube
  have hi : inHalf L c = inHalf L d := by
    refine lxOfCoord_inj (inHalf_lt hL hc) ?_ (hel.trans (by rw [hh]))
    rw [hh]; exact inHalf_lt hL hd
  funext mu
  have h1 := congrFun hi mu
  have h2 := congrFun hh mu
  unfold inHalf at h1
  rw [h2] at h1
  have e1 : half L d mu * subSize L mu 0 ≤ c mu := by
    rw [← h2]; unfold half; split <;> omega
  have e2 : half L d mu * subSize L mu 0 ≤ d mu := by
    unfold half; split <;> omega
  omega

theorem off_16 {L : Coords} (hL : ∀ mu, 2 ∣ L mu) (hp : ∀ mu, 0 < L mu) : ∑ i ∈ Finset.range 16, subcubeVol L i = volOfLx L := by
  have hk : ∀ mu, ∃ k, L mu = 2 * (k + 1) := fun mu => by
    obtain ⟨k, hk⟩ := hL mu
    have := hp mu
    exact ⟨k - 1, by omega⟩
  choose k hk using hk
  have h0 : ∀ mu, L mu / 2 + 1 = k mu + 2 := fun mu => by have := hk mu; omega
  have h1 : ∀ mu, L mu / 2 - 1 = k mu := fun mu => by have := hk mu; omega
  have hc : ∀ i < 16, subcubeVol L i = dirs.foldl (fun vol mu => vol * if coordOfLx i (fun _ => 2) mu = 0 then k mu + 2 else k mu) 1 := by
    intro i _
    unfold subcubeVol subSize
    simp only [h0, h1]
  rw [Finset.sum_congr rfl (fun i hi => hc i (Finset.mem_range.1 hi))]
  have hv : volOfLx L = 2 * (k 0 + 1) * (2 * (k 1 + 1)) * (2 * (k 2 + 1)) * (2 * (k 3 + 1)) := by
    unfold volOfLx dirs
    simp only [List.foldl_cons, List.foldl_nil, Nat.one_mul, hk]
  rw [hv]
  have ht : ∀ i < 16, ∀ mu : Dir, coordOfLx i (fun _ => 2) mu = i / 2 ^ (3 - mu.val) % 2 := by decide
  simp only [Finset.sum_range_succ, Finset.sum_range_zero, dirs, List.foldl_cons, List.foldl_nil]
  simp [ht]
  ring

theorem topoPos_lt {L c : Coords} (hL : ∀ mu, 2 ∣ L mu) (hc : ∀ mu, c mu < L mu) : topoPos L c < volOfLx L := by
  have hp : ∀ mu, 0 < L mu := fun mu => by have := hc mu; omega
  rw [← off_16 hL hp]
  have := off_mono L (show (subcubeOf L c).1 + 1 ≤ 16 from cube_lt L c)
  exact lt_of_lt_of_le (topoPos_bounds hL hc).2 this

theorem topo_surj {L : Coords} (hL : ∀ mu, 2 ∣ L mu) (p : Nat) (hp : p < volOfLx L) : ∃ c ∈ box L, topoPos L c = p := by
  have hcard : (box L).card = (Finset.range (volOfLx L)).card := by
    rw [Finset.card_range, box_card]
    simp [points, volOfLx, dirs]
  obtain ⟨c, hc, h⟩ := Finset.surj_on_of_inj_on_of_card_le (s := box L) (t := Finset.range (volOfLx L)) (fun c _ => topoPos L c)
    (fun c hc => Finset.mem_range.2 (topoPos_lt hL (mem_box.1 hc))) (fun c d hc hd h => topoPos_inj hL (mem_box.1 hc) (mem_box.1 hd) h) hcard.symm.le p (Finset.mem_range.2 hp)
  exact ⟨c, hc, h.symm⟩

/-- C69: on a lattice with even sides the points are numbered from 0 to the volume, each number once, and the first numbers are those of the
points with all the coordinates not larger than half of the side, in lexicographic order with the last direction running faster -/
theorem C69_point_order {L : Coords} (hL : ∀ mu, 2 ∣ L mu) (hp : ∀ mu, 0 < L mu) :
    (∀ c ∈ box L, topoPos L c < volOfLx L) ∧ (∀ p < volOfLx L, ∃! c, c ∈ box L ∧ topoPos L c = p) ∧
    ∀ c ∈ box L, (topoPos L c < (L 0 / 2 + 1) * (L 1 / 2 + 1) * (L 2 / 2 + 1) * (L 3 / 2 + 1) ↔ ∀ mu, c mu ≤ L mu / 2) ∧
      ((∀ mu, c mu ≤ L mu / 2) → topoPos L c = ((c 0 * (L 1 / 2 + 1) + c 1) * (L 2 / 2 + 1) + c 2) * (L 3 / 2 + 1) + c 3) := by
  refine ⟨fun c hc => topoPos_lt hL (mem_box.1 hc), fun p h => ?_, fun c hc => ?_⟩
  · obtain ⟨c, hc, hpc⟩ := topo_surj hL p h
    exact ⟨c, ⟨hc, hpc⟩, fun d hd => topoPos_inj hL (mem_box.1 hd.1) (mem_box.1 hc) (hd.2.trans hpc.symm)⟩
  · have hS : ∑ i ∈ Finset.range 1, subcubeVol L i = (L 0 / 2 + 1) * (L 1 / 2 + 1) * (L 2 / 2 + 1) * (L 3 / 2 + 1) := by
      rw [Finset.sum_range_one]
      unfold subcubeVol dirs
      simp only [List.foldl_cons, List.foldl_nil, Nat.one_mul, subSize]
      rfl
    have hb := topoPos_bounds hL (mem_box.1 hc)
    have hz : (∀ mu, c mu ≤ L mu / 2) → ∀ mu, half L c mu = 0 := fun h mu => by
      have := h mu
      unfold half subSize; simp only [if_true]; rw [if_neg (by omega)]
    have hcube : (∀ mu, c mu ≤ L mu / 2) → (subcubeOf L c).1 = 0 := by
      intro h
      rw [subcubeOf_eq]
      simp only [lxOfCoord, mix, dirs, List.foldl_cons, List.foldl_nil, hz h]
    refine ⟨⟨fun h mu => ?_, fun h => ?_⟩, fun h => ?_⟩
    · rw [← hS] at h
      have hc0 : (subcubeOf L c).1 = 0 := by
        by_contra h0
        have := off_mono L (show 1 ≤ (subcubeOf L c).1 by omega)
        omega
      rw [subcubeOf_eq] at hc0
      have hh : half L c = fun _ => 0 := by
        refine lxOfCoord_inj (s := fun _ => 2) (fun mu => half_lt L c mu) (fun _ => by decide) ?_
        exact hc0
      have := congrFun hh mu
      unfold half subSize at this
      simp only [if_true] at this
      by_contra h'
      rw [if_pos (by omega)] at this
      omega
    · rw [hcube h] at hb
      rw [← hS]
      exact hb.2
    · rw [topoPos_eq, hcube h, subcubeOf_eq]
      simp only [Finset.range_zero, Finset.sum_empty, Nat.add_zero, lxOfCoord, mix, dirs, List.foldl_cons, List.foldl_nil, inHalf, hz h, subSize, if_true]
      simp

/-- C69: with an odd side two points can have the same number, so that one of the two is lost -/
theorem C69_violated_odd : (![0, 0, 0, 2] : Coords) ∈ box ![2, 2, 2, 3] ∧ (![0, 0, 1, 2] : Coords) ∈ box ![2, 2, 2, 3] ∧
    topoPos ![2, 2, 2, 3] ![0, 0, 0, 2] = topoPos ![2, 2, 2, 3] ![0, 0, 1, 2] := by
  refine ⟨by decide, by decide, by decide⟩

open Classical in
/-- the point with a given number -/
noncomputable def pointOf (L : Coords) (p : Nat) : Coords := if h : ∃ c ∈ box L, topoPos L c = p then h.choose else fun _ => 0

theorem pointOf_spec {L : Coords} (hL : ∀ mu, 2 ∣ L mu) (p : Nat) (hp : p < volOfLx L) : pointOf L p ∈ box L ∧ topoPos L (pointOf L p) = p := by
  unfold pointOf
  rw [dif_pos (topo_surj hL p hp)]
  exact (topo_surj hL p hp).choose_spec

theorem topo_order {L : Coords} (hL : ∀ mu, 2 ∣ L mu) : Order L (topoPos L) (pointOf L) := by
  refine ⟨fun c hc => topoPos_lt hL hc, fun p hp => mem_box.1 (pointOf_spec hL p hp).1, fun c hc => ?_, fun p hp => (pointOf_spec hL p hp).2⟩
  have := pointOf_spec hL _ (topoPos_lt hL hc)
  exact topoPos_inj hL (mem_box.1 this.1) hc this.2

/-! ### The file -/

theorem sextVol_eq (L : Coords) : sextVol L = (L 0 / 2 + 1) * (L 1 / 2 + 1) * (L 2 / 2 + 1) * (L 3 / 2 + 1) := by
  unfold sextVol dirs
  simp only [List.foldl_cons, List.foldl_nil, Nat.one_mul]

theorem sextVol_pos (L : Coords) : 0 < sextVol L := by rw [sextVol_eq]; positivity

theorem locSext_spec (g : Geo) (hN : 0 < g.nranks) : 0 < locSext g ∧ sextVol g.L ≤ g.nranks * locSext g := by
  have := sextVol_pos g.L
  unfold locSext
  have h1 := Nat.lt_mul_div_succ (sextVol g.L + (g.nranks - 1)) hN
  refine ⟨Nat.div_pos (by omega) hN, ?_⟩
  rw [Nat.mul_add] at h1
  omega

/-- C69: the rank that writes a given element is only one -/
theorem piece_iff (g : Geo) (p r : Nat) (hp : p < sextVol g.L) (hl : 0 < locSext g) : (istart g r ≤ p ∧ p < iend g r) ↔ r = p / locSext g := by
  unfold iend istart
  have : (min (sextVol g.L) (locSext g * r) ≤ p ∧ p < min (sextVol g.L) (min (sextVol g.L) (locSext g * r) + locSext g)) ↔ (locSext g * r ≤ p ∧ p < locSext g * r + locSext g) := by
    omega
  rw [this]
  constructor
  · rintro ⟨h1, h2⟩
    refine (Nat.div_eq_of_lt_le ?_ ?_).symm
    · rw [Nat.mul_comm]; exact h1
    · rw [Nat.succ_mul, Nat.mul_comm]; exact h2
  · rintro rfl
    exact ⟨Nat.mul_div_le _ _, by have := Nat.lt_mul_div_succ p hl; rw [Nat.mul_add, Nat.mul_one] at this; exact this⟩

/-- what a rank writes -/
def storeStep (g : Geo) (base : Nat) (itraj nSmooth : Int) (top : ℝ) (corr : Nat → Nat → ℝ) (file : Nat → Option Cell) (rank : Nat) : Nat → Option Cell :=
  let file := if rank = 0 then fwrite file base 3 (header itraj nSmooth top) else file
  let ori := base + 3
  if iend g rank - istart g rank ≠ 0 then fwrite file (ori + istart g rank) (iend g rank - istart g rank) (fun i => .dbl (corr rank i)) else file

theorem storeStep_at (g : Geo) (base : Nat) (itraj nSmooth : Int) (top : ℝ) (corr : Nat → Nat → ℝ) (file : Nat → Option Cell) (rank w : Nat) :
    storeStep g base itraj nSmooth top corr file rank w =
      if base + 3 ≤ w ∧ istart g rank ≤ w - (base + 3) ∧ w - (base + 3) < iend g rank then some (.dbl (corr rank (w - (base + 3) - istart g rank)))
      else if rank = 0 ∧ base ≤ w ∧ w < base + 3 then some (header itraj nSmooth top (w - base)) else file w := by
  have hle : istart g rank ≤ iend g rank := by unfold iend istart; omega
  unfold storeStep
  by_cases h : base + 3 ≤ w ∧ istart g rank ≤ w - (base + 3) ∧ w - (base + 3) < iend g rank
  · rw [if_pos h, if_pos (by omega)]
    unfold fwrite
    rw [if_pos (by omega), show w - (base + 3 + istart g rank) = w - (base + 3) - istart g rank by omega]
  · rw [if_neg h]
    have key : (if iend g rank - istart g rank ≠ 0 then
        fwrite (if rank = 0 then fwrite file base 3 (header itraj nSmooth top) else file) (base + 3 + istart g rank) (iend g rank - istart g rank) (fun i => .dbl (corr rank i))
        else (if rank = 0 then fwrite file base 3 (header itraj nSmooth top) else file)) w = (if rank = 0 then fwrite file base 3 (header itraj nSmooth top) else file) w := by
      split
      · conv_lhs => unfold fwrite
        rw [if_neg (by omega)]
        rfl
      · rfl
    rw [key]
    by_cases h0 : rank = 0
    · rw [if_pos h0]
      unfold fwrite
      by_cases h1 : base ≤ w ∧ w < base + 3
      · rw [if_pos h1, if_pos ⟨h0, h1⟩]
      · rw [if_neg h1, if_neg (fun h => h1 h.2)]
    · rw [if_neg h0, if_neg (fun h => h0 h.1)]

theorem fold_at {F : Type} (step : (Nat → F) → Nat → (Nat → F)) (w : Nat) (v : F) (r0 : Nat) (h1 : ∀ file, step file r0 w = v) (h2 : ∀ file r, r ≠ r0 → step file r w = file w)
    (l : List Nat) (file : Nat → F) (h : file w = v ∨ r0 ∈ l) : l.foldl step file w = v := by
  induction l generalizing file with
  | nil => exact h.resolve_right (List.not_mem_nil)
  | cons r l ih =>
    rw [List.foldl_cons]
    by_cases hr : r = r0
    · subst hr; exact ih _ (Or.inl (h1 file))
    · refine ih _ ?_
      rw [h2 file r hr]
      rcases h with h | h
      · exact Or.inl h
      · exact Or.inr ((List.mem_cons.1 h).resolve_left (fun h' => hr h'.symm))

theorem fold_keep {F : Type} (step : (Nat → F) → Nat → (Nat → F)) (w : Nat) (h : ∀ file r, step file r w = file w) (l : List Nat) (file : Nat → F) : l.foldl step file w = file w := by
  induction l generalizing file with
  | nil => rfl
  | cons r l ih => rw [List.foldl_cons, ih, h]

theorem storeData_at (g : Geo) (ok : g.Ok) (order : List Nat) (ho : order.Perm (List.range g.nranks)) (base : Nat) (itraj nSmooth : Int) (top : ℝ) (corr : Nat → Nat → ℝ)
    (file : Nat → Option Cell) (w : Nat) :
    storeData g order base itraj nSmooth top corr file w =
      if base ≤ w ∧ w < base + 3 then some (header itraj nSmooth top (w - base))
      else if base + 3 ≤ w ∧ w < base + 3 + sextVol g.L then some (.dbl (corr ((w - (base + 3)) / locSext g) ((w - (base + 3)) % locSext g)))
      else file w := by
  have hN := nranks_pos g ok
  obtain ⟨hl, hS⟩ := locSext_spec g hN
  have hmem : ∀ r, r < g.nranks → r ∈ order := fun r hr => ho.mem_iff.2 (List.mem_range.2 hr)
  show order.foldl (storeStep g base itraj nSmooth top corr) file w = _
  have hie : ∀ r, iend g r ≤ sextVol g.L := fun r => by unfold iend; omega
  by_cases h1 : base ≤ w ∧ w < base + 3
  · rw [if_pos h1]
    refine fold_at _ w _ 0 (fun file => ?_) (fun file r hr => ?_) order file (Or.inr (hmem 0 hN))
    · rw [storeStep_at, if_neg (by omega), if_pos ⟨rfl, h1⟩]
    · rw [storeStep_at, if_neg (by omega), if_neg (fun h => hr h.1)]
  rw [if_neg h1]
  by_cases h2 : base + 3 ≤ w ∧ w < base + 3 + sextVol g.L
  · rw [if_pos h2]
    have hp : w - (base + 3) < sextVol g.L := by omega
    have hpi := fun r => piece_iff g (w - (base + 3)) r hp hl
    have hr : (w - (base + 3)) / locSext g < g.nranks := by
      rw [Nat.div_lt_iff_lt_mul hl]; exact lt_of_lt_of_le hp hS
    refine fold_at _ w _ ((w - (base + 3)) / locSext g) (fun file => ?_) (fun file r hr => ?_) order file (Or.inr (hmem _ hr))
    · rw [storeStep_at, if_pos ⟨h2.1, (hpi _).2 rfl⟩]
      have hi : istart g ((w - (base + 3)) / locSext g) = locSext g * ((w - (base + 3)) / locSext g) := by
        unfold istart
        have := Nat.mul_div_le (w - (base + 3)) (locSext g)
        omega
      rw [hi]
      congr 3
      have := Nat.div_add_mod (w - (base + 3)) (locSext g)
      omega
    · rw [storeStep_at, if_neg (fun h => hr ((hpi r).1 h.2)), if_neg (by omega)]
  · rw [if_neg h2]
    refine fold_keep _ w (fun file r => ?_) order file
    have := hie r
    rw [storeStep_at, if_neg (by omega), if_neg (by omega)]

theorem sext_le (L : Coords) (hL : ∀ mu, 2 ∣ L mu) (hp : ∀ mu, 0 < L mu) : sextVol L ≤ volOfLx L := by
  rw [← off_16 hL hp, sextVol_eq]
  have := off_mono L (show 1 ≤ 16 by decide)
  rw [Finset.sum_range_one] at this
  refine le_trans (le_of_eq ?_) this
  unfold subcubeVol dirs
  simp only [List.foldl_cons, List.foldl_nil, Nat.one_mul, subSize]
  rfl

/-- C69: what is in the file after a correlator has been stored, on any number of ranks and whatever the order in which they write: the
header, then at the place p the value at the point with number (p / locSext)*locVol + p % locSext; the rest of the file is untouched and the
next record starts after the last point -/
theorem C69_file (g : Geo) (ok : g.Ok) (hL : ∀ mu, 2 ∣ g.L mu) (X : Nat → Nat → Coords) (hX : CoordTable g X) (hs : CopyOk g (topoIndex g X)) (base : Nat) (itraj nSmooth : Int)
    (top : ℝ) (phi : Coords → ℝ) (corr : Nat → Nat → ℝ) (hc : Represents g X phi corr) (file : Nat → Option Cell) :
    (∃ file' base', StoreTopoCorr g X base itraj nSmooth top corr file file' base') ∧
    ∀ file' base', StoreTopoCorr g X base itraj nSmooth top corr file file' base' →
      base' = base + 3 + sextVol g.L ∧
      file' base = some (.int itraj) ∧ file' (base + 1) = some (.dbl top) ∧ file' (base + 2) = some (.int nSmooth) ∧
      (∀ p < sextVol g.L, file' (base + 3 + p) = some (.dbl (phi (pointOf g.L (p / locSext g * g.locVol + p % locSext g))))) ∧
      ∀ w, w < base ∨ base' ≤ w → file' w = file w := by
  have hV : sextVol g.L ≤ g.glbVol := sext_le g.L hL (fun mu => L_pos ok mu)
  have hbij := block_bij g ok X hX _ _ (topo_order hL)
  refine ⟨?_, ?_⟩
  · let order : Nat → List Nat := fun _ => List.range g.locVol
    obtain ⟨⟨temp, ht⟩, -⟩ := block_run g ok _ _ hbij hs corr (fun _ => 0) (fun _ => 0) order (fun _ _ => List.Perm.refl _) corr
    exact ⟨_, _, _, _, _, List.range g.nranks, temp, (fun _ _ => List.Perm.refl _ : ∀ r, r < g.nranks → (order r).Perm (List.range g.locVol)), List.Perm.refl _, ht, rfl, rfl⟩
  · rintro file' base' ⟨junk, junk', order, worder, temp, ho, hw, ht, rfl, rfl⟩
    have h2 := ((block_run g ok _ _ hbij hs corr junk junk' order ho corr).2 temp ht).2
    obtain ⟨hl, hS⟩ := locSext_spec g (nranks_pos g ok)
    refine ⟨rfl, ?_, ?_, ?_, fun p hp => ?_, fun w hw' => ?_⟩
    · rw [storeData_at g ok worder hw, if_pos (by omega), Nat.sub_self]; rfl
    · rw [storeData_at g ok worder hw, if_pos (by omega), show base + 1 - base = 1 by omega]; rfl
    · rw [storeData_at g ok worder hw, if_pos (by omega), show base + 2 - base = 2 by omega]; rfl
    · rw [storeData_at g ok worder hw, if_neg (by omega), if_pos (by omega), show base + 3 + p - (base + 3) = p by omega]
      have hr : p / locSext g < g.nranks := by
        rw [Nat.div_lt_iff_lt_mul hl]; exact lt_of_lt_of_le hp hS
      have hls : locSext g ≤ g.locVol := by
        unfold locSext
        rw [glbVol_eq g ok] at hV
        have hN := nranks_pos g ok
        rw [← Nat.lt_succ_iff, Nat.div_lt_iff_lt_mul hN, Nat.succ_mul, Nat.mul_comm]
        omega
      have hi : p % locSext g < g.locVol := lt_of_lt_of_le (Nat.mod_lt _ hl) hls
      rw [h2 _ _ hr hi]
      obtain ⟨a, b⟩ := hbij.from_lt _ _ hr hi
      rw [hc _ _ a b]
      have hlt : p / locSext g * g.locVol + p % locSext g < volOfLx g.L := by
        have h3 : volOfLx g.L = g.nranks * g.locVol := glbVol_eq g ok
        rw [h3]
        calc _ < p / locSext g * g.locVol + g.locVol := by omega
          _ = (p / locSext g + 1) * g.locVol := by ring
          _ ≤ _ := Nat.mul_le_mul_right _ hr
      rw [coordTable_at g ok X hX _ (mem_box.1 (pointOf_spec hL _ hlt).1)]
    · rw [storeData_at g ok worder hw, if_neg (by omega), if_neg (by omega)]


theorem one_rank_copy (g : Geo) (ok : g.Ok) (hL : ∀ mu, 2 ∣ g.L mu) (X : Nat → Nat → Coords) (hX : CoordTable g X) (h1 : g.nranks = 1) : CopyOk g (topoIndex g X) := by
  have hbij := block_bij g ok X hX _ _ (topo_order hL)
  intro r hr
  refine self_ok hbij (fun r i hr hi => ?_) r hr
  have := (hbij.to_lt r i hr hi).1
  rw [h1] at hr this
  exact (Nat.lt_one_iff.1 this).trans (Nat.lt_one_iff.1 hr).symm

/-- C69, full statement for the file: at the place of the point c, in lexicographic order among the points not beyond half of the lattice,
there is the value at c. Proved when there is only one rank: see C69_violated_ranks. -/
theorem C69_file_partial (g : Geo) (ok : g.Ok) (hL : ∀ mu, 2 ∣ g.L mu) (h1 : g.nranks = 1) (X : Nat → Nat → Coords) (hX : CoordTable g X) (base : Nat) (itraj nSmooth : Int)
    (top : ℝ) (phi : Coords → ℝ) (corr : Nat → Nat → ℝ) (hc : Represents g X phi corr) (file file' : Nat → Option Cell) (base' : Nat)
    (h : StoreTopoCorr g X base itraj nSmooth top corr file file' base') (c : Coords) (hcL : ∀ mu, c mu ≤ g.L mu / 2) :
    file' (base + 3 + (((c 0 * (g.L 1 / 2 + 1) + c 1) * (g.L 2 / 2 + 1) + c 2) * (g.L 3 / 2 + 1) + c 3)) = some (.dbl (phi c)) := by
  have hp : ∀ mu, 0 < g.L mu := fun mu => L_pos ok mu
  have hcb : c ∈ box g.L := mem_box.2 (fun mu => by have := hcL mu; have := hp mu; omega)
  obtain ⟨ho1, ho2, ho3⟩ := C69_point_order hL hp
  obtain ⟨hlt, hpos⟩ := ho3 c hcb
  have hl : topoPos g.L c < sextVol g.L := by rw [sextVol_eq]; exact hlt.2 hcL
  obtain ⟨-, -, -, -, hf, -⟩ := (C69_file g ok hL X hX (one_rank_copy g ok hL X hX h1) base itraj nSmooth top phi corr hc file).2 file' base' h
  rw [← hpos hcL, hf _ hl]
  have hls : locSext g = sextVol g.L := by unfold locSext; rw [h1]; simp
  rw [hls, Nat.div_eq_of_lt hl, Nat.mod_eq_of_lt hl, Nat.zero_mul, Nat.zero_add, (topo_order hL).left c (mem_box.1 hcb)]

/-- C69 does not hold with more ranks, unless all the sides are two: all the places not written by the master rank have the value of another
point, since the ranks write locSext elements each, but have been given locVol points each -/
theorem C69_violated_ranks (g : Geo) (ok : g.Ok) (hL : ∀ mu, 2 ∣ g.L mu) (X : Nat → Nat → Coords) (hX : CoordTable g X) (hs : CopyOk g (topoIndex g X))
    (hlt : locSext g < g.locVol) (base : Nat) (itraj nSmooth : Int)
    (top : ℝ) (phi : Coords → ℝ) (corr : Nat → Nat → ℝ) (hc : Represents g X phi corr) (file file' : Nat → Option Cell) (base' : Nat)
    (h : StoreTopoCorr g X base itraj nSmooth top corr file file' base') (c : Coords) (hcL : ∀ mu, c mu ≤ g.L mu / 2)
    (hout : locSext g ≤ ((c 0 * (g.L 1 / 2 + 1) + c 1) * (g.L 2 / 2 + 1) + c 2) * (g.L 3 / 2 + 1) + c 3) :
    ∃ d ∈ box g.L, d ≠ c ∧ file' (base + 3 + (((c 0 * (g.L 1 / 2 + 1) + c 1) * (g.L 2 / 2 + 1) + c 2) * (g.L 3 / 2 + 1) + c 3)) = some (.dbl (phi d)) := by
  have hp : ∀ mu, 0 < g.L mu := fun mu => L_pos ok mu
  have hcb : c ∈ box g.L := mem_box.2 (fun mu => by have := hcL mu; have := hp mu; omega)
  obtain ⟨ho1, ho2, ho3⟩ := C69_point_order hL hp
  obtain ⟨hlt', hpos⟩ := ho3 c hcb
  have hl : topoPos g.L c < sextVol g.L := by rw [sextVol_eq]; exact hlt'.2 hcL
  obtain ⟨-, -, -, -, hf, -⟩ := (C69_file g ok hL X hX hs base itraj nSmooth top phi corr hc file).2 file' base' h
  rw [← hpos hcL] at hout ⊢
  obtain ⟨hl0, hS⟩ := locSext_spec g (nranks_pos g ok)
  have hr : topoPos g.L c / locSext g < g.nranks := by
    rw [Nat.div_lt_iff_lt_mul hl0]; exact lt_of_lt_of_le hl hS
  have hi : topoPos g.L c % locSext g < g.locVol := lt_trans (Nat.mod_lt _ hl0) hlt
  have hlt2 : topoPos g.L c / locSext g * g.locVol + topoPos g.L c % locSext g < volOfLx g.L := by
    have h3 : volOfLx g.L = g.nranks * g.locVol := glbVol_eq g ok
    rw [h3]
    calc _ < topoPos g.L c / locSext g * g.locVol + g.locVol := by omega
      _ = (topoPos g.L c / locSext g + 1) * g.locVol := by ring
      _ ≤ _ := Nat.mul_le_mul_right _ hr
  obtain ⟨a, b⟩ := pointOf_spec hL _ hlt2
  refine ⟨_, a, fun he => ?_, hf _ hl⟩
  rw [he] at b
  have h1 : 0 < topoPos g.L c / locSext g := Nat.div_pos hout hl0
  have h2 := Nat.div_add_mod (topoPos g.L c) (locSext g)
  have h3 : locSext g * (topoPos g.L c / locSext g) < topoPos g.L c / locSext g * g.locVol := by
    rw [Nat.mul_comm]; exact Nat.mul_lt_mul_of_pos_left hlt h1
  omega

/-- a lattice with the time divided between two ranks -/
def geoF : Geo := ⟨![4, 2, 2, 2], ![2, 1, 1, 1]⟩

/-- C69: on such lattice the conditions of C69_violated_ranks are met, and the point (2,0,0,1) is among those not written by the master rank -/
theorem C69_violated_ranks_instance : geoF.Ok ∧ (∀ mu, 2 ∣ geoF.L mu) ∧ CoordTable geoF (siteCoords geoF) ∧ CopyOk geoF (topoIndex geoF (siteCoords geoF)) ∧
    locSext geoF = 12 ∧ geoF.locVol = 16 ∧ (∀ mu, (![2, 0, 0, 1] : Coords) mu ≤ geoF.L mu / 2) := by
  refine ⟨by decide, by decide, siteCoords_table geoF (by decide), ?_, by decide, by decide, by decide⟩
  unfold CopyOk SelfCopyOk
  decide +kernel

/-! ### The loop -/

theorem smoothTo_spec {Conf : Type} (step : Conf → Conf) (next : Int) (k : Nat) (c : Conf) (n : Int) (hk : n + k = next) (c' : Conf) (n' : Int) :
    SmoothTo step next c n c' n' ↔ c' = step^[k] c ∧ n' = next := by
  induction k generalizing c n with
  | zero =>
    constructor
    · intro h
      cases h with
      | stop => exact ⟨rfl, by omega⟩
      | more _ _ _ _ h => omega
    · rintro ⟨h1, h2⟩
      have h3 : n' = n := by simp at hk; omega
      rw [h1, h3]
      exact SmoothTo.stop (step := step) (next := next) c n (by simp at hk; omega)
  | succ k ih =>
    constructor
    · intro h
      cases h with
      | stop _ _ h => omega
      | more _ _ _ _ _ h => exact (ih (step c) (n + 1) (by push_cast at hk; omega)).1 h
    · rintro ⟨rfl, rfl⟩
      exact SmoothTo.more _ _ _ _ (by push_cast at hk; omega) ((ih (step c) (n + 1) (by push_cast at hk; omega)).2 ⟨rfl, rfl⟩)

theorem nextMeas_eq {m : Int} (hm : 0 < m) (k : Nat) : nextMeas m (k * m) = (k + 1) * m := by
  unfold nextMeas
  rw [show (k : Int) * m + m = ((k : Int) + 1) * m by ring, Int.mul_tdiv_cancel _ (by omega)]

theorem meas_spec {Conf : Type} (step : Conf → Conf) (m : Nat) (hm : 0 < m) (N : Int) (c0 : Conf) (j k : Nat) (hj : (k + j : Nat) = N.toNat / m) (l : List (Int × Conf)) :
    MeasLoop step m N (step^[k * m] c0) (k * m : Nat) l ↔ l = (List.range (j + 1)).map (fun i : Nat => ((((k + i) * m : Nat) : Int), step^[(k + i) * m] c0)) := by
  have hm' : (0 : Int) < m := by exact_mod_cast hm
  have hnx : nextMeas m ((k * m : Nat) : Int) = ((k + 1) * m : Nat) := by push_cast; exact nextMeas_eq hm' k
  induction j generalizing k l with
  | zero =>
    have hgt : nextMeas m ((k * m : Nat) : Int) > N := by
      rw [hnx]
      have h1 : N.toNat < (k + 1) * m := by
        rw [← Nat.div_lt_iff_lt_mul hm]; omega
      omega
    constructor
    · intro h
      cases h with
      | last => simp
      | again _ _ _ _ _ _ h => exact absurd hgt h
    · rintro rfl
      have := MeasLoop.last (step := step) (step^[k * m] c0) ((k * m : Nat) : Int) (by omega : (m : Int) ≠ 0) hgt
      simpa using this
  | succ j ih =>
    have hle : ¬ nextMeas m ((k * m : Nat) : Int) > N := by
      rw [hnx]
      have h1 : (k + 1) * m ≤ N.toNat := by
        rw [← Nat.le_div_iff_mul_le hm]; omega
      have : 0 < (k + 1) * m := Nat.mul_pos (by omega) hm
      omega
    have hstep : ∀ c' n', SmoothTo step (nextMeas m ((k * m : Nat) : Int)) (step^[k * m] c0) ((k * m : Nat) : Int) c' n' ↔ c' = step^[(k + 1) * m] c0 ∧ n' = ((k + 1) * m : Nat) := by
      intro c' n'
      rw [smoothTo_spec step _ m _ _ (by rw [hnx]; push_cast; ring), hnx, ← Function.iterate_add_apply, show m + k * m = (k + 1) * m by ring]
    have hlist : ∀ (F : Nat → Int × Conf), (List.range (j + 1 + 1)).map (fun i => F (k + i)) = F k :: (List.range (j + 1)).map (fun i => F (k + 1 + i)) := by
      intro F
      rw [List.range_succ_eq_map, List.map_cons, List.map_map]
      simp only [Nat.add_zero]
      congr 1
      refine List.map_congr_left (fun i _ => ?_)
      simp only [Function.comp, Nat.succ_eq_add_one]
      rw [show k + (i + 1) = k + 1 + i by omega]
    rw [hlist (fun i => (((i * m : Nat) : Int), step^[i * m] c0))]
    have ih' := fun l => ih (k + 1) (by omega) l (by push_cast; exact_mod_cast nextMeas_eq hm' (k + 1))
    constructor
    · intro h
      cases h with
      | last _ _ _ h => exact absurd h hle
      | again _ _ c' n' l' _ _ h1 h2 =>
        obtain ⟨rfl, rfl⟩ := (hstep _ _).1 h1
        rw [(ih' l').1 h2]
    · rintro rfl
      exact MeasLoop.again _ _ _ _ _ (by omega) hle ((hstep _ _).2 ⟨rfl, rfl⟩) ((ih' _).2 rfl)

/-- C69: with a positive distance m between the measurements the loop ends, and the measurements are done after 0, m, 2m, ... steps of
smoothing of the given configuration, up to the largest multiple of m not beyond the total number of steps -/
theorem C69_loop {Conf : Type} (step : Conf → Conf) (m : Nat) (hm : 0 < m) (N : Int) (c0 : Conf) (l : List (Int × Conf)) :
    MeasLoop step m N c0 0 l ↔ l = (List.range (N.toNat / m + 1)).map (fun i : Nat => (((i * m : Nat) : Int), step^[i * m] c0)) := by
  have := meas_spec step m hm N c0 (N.toNat / m) 0 (by omega) l
  simpa using this

/-- C69: the loop never ends if the distance between the measurements is zero (division by zero) or negative (the same configuration is measured
forever, unless the number of steps is below the distance) -/
theorem C69_violated_each {Conf : Type} (step : Conf → Conf) (m N : Int) (hm : m ≤ 0) (hN : m ≤ N) (c0 : Conf) : ¬ ∃ l, MeasLoop step m N c0 0 l := by
  rintro ⟨l, h⟩
  generalize hn : (0 : Int) = n at h
  induction h with
  | last c n h0 h =>
    subst hn
    unfold nextMeas at h
    rw [zero_add, Int.tdiv_self h0] at h
    omega
  | again c n c' n' l h0 _ hs _ ih =>
    subst hn
    unfold nextMeas at hs
    rw [zero_add, Int.tdiv_self h0, one_mul] at hs
    cases hs with
    | stop => exact ih rfl
    | more _ _ _ _ h => omega

/-- C69: the lines written: configuration number, number of steps, charge and plaquette, one for each multiple of m -/
theorem C69_lines {Conf : Type} (step : Conf → Conf) (m : Nat) (hm : 0 < m) (N iconf : Int) (charge plaq : Conf → ℝ) (c0 : Conf) (l : List (Int × Conf)) (h : MeasLoop step m N c0 0 l) :
    (outLines charge plaq iconf l).length = N.toNat / m + 1 ∧
    ∀ n : Nat, ∀ x y, ((iconf, (n : Int), x, y) ∈ outLines charge plaq iconf l ↔ m ∣ n ∧ n ≤ N.toNat ∧ x = charge (step^[n] c0) ∧ y = plaq (step^[n] c0)) := by
  rw [(C69_loop step m hm N c0 l).1 h]
  unfold outLines
  refine ⟨by simp, fun n x y => ?_⟩
  simp only [List.map_map, List.mem_map, List.mem_range, Function.comp]
  constructor
  · rintro ⟨i, hi, he⟩
    rw [Prod.mk.injEq, Prod.mk.injEq, Prod.mk.injEq] at he
    obtain ⟨-, h2, h3, h4⟩ := he
    have h2' : i * m = n := by exact_mod_cast h2
    subst h2'
    refine ⟨Dvd.intro_left _ rfl, ?_, h3.symm, h4.symm⟩
    rw [← Nat.le_div_iff_mul_le hm]; omega
  · rintro ⟨⟨i, rfl⟩, h2, rfl, rfl⟩
    refine ⟨i, ?_, by rw [Nat.mul_comm i m]⟩
    rw [Nat.mul_comm, ← Nat.le_div_iff_mul_le hm] at h2
    omega

/-! ### The file of all the correlators -/

/-- a record of the file: header, and values of `phi` at the points in the order in which they are found -/
def IsRecord (g : Geo) (file : Nat → Option Cell) (at_ : Nat) (iconf n : Int) (top : ℝ) (phi : Coords → ℝ) : Prop :=
  file at_ = some (.int iconf) ∧ file (at_ + 1) = some (.dbl top) ∧ file (at_ + 2) = some (.int n) ∧
  ∀ p < sextVol g.L, file (at_ + 3 + p) = some (.dbl (phi (pointOf g.L (p / locSext g * g.locVol + p % locSext g))))

/-- C69: all the correlators due are stored, one record after the other, starting from the end of the file, which is not touched -/
theorem C69_all_records {Conf : Type} (g : Geo) (ok : g.Ok) (hL : ∀ mu, 2 ∣ g.L mu) (X : Nat → Nat → Coords) (hX : CoordTable g X) (hs : CopyOk g (topoIndex g X))
    (hd : ∀ mu, DirOk g X mu) (q : Conf → Coords → ℝ) (qloc : Conf → Nat → Nat → ℝ) (hq : ∀ c, Represents g X (q c) (qloc c)) (charge : Conf → ℝ) (measCorr iconf : Int)
    (l : List (Int × Conf)) (file : Nat → Option Cell) (base : Nat) :
    (∃ file' base', CorrFile g X qloc charge measCorr iconf false l file base file' base') ∧
    ∀ file' base', CorrFile g X qloc charge measCorr iconf false l file base file' base' →
      base' = base + (l.filter (fun p => corrDue measCorr p.1)).length * (3 + sextVol g.L) ∧
      (∀ k (hk : k < (l.filter (fun p => corrDue measCorr p.1)).length),
        IsRecord g file' (base + k * (3 + sextVol g.L)) iconf ((l.filter (fun p => corrDue measCorr p.1))[k]).1
          (charge ((l.filter (fun p => corrDue measCorr p.1))[k]).2) (convolution g.L (q ((l.filter (fun p => corrDue measCorr p.1))[k]).2))) ∧
      ∀ w, w < base ∨ base' ≤ w → file' w = file w := by
  induction l generalizing file base with
  | nil =>
    refine ⟨⟨_, _, CorrFile.nil _ _⟩, ?_⟩
    intro file' base' h
    cases h
    exact ⟨by simp, fun k hk => absurd hk (by simp), fun _ _ => rfl⟩
  | cons p l ih =>
    obtain ⟨n, c⟩ := p
    by_cases hdue : corrDue measCorr n = true
    · obtain ⟨⟨corr, hcorr⟩, hcs⟩ := C69_corr_convolution g ok X hX hd (q c) (qloc c) (hq c)
      have hst := fun corr (hcorr : ComputeTopoCorr g X false (qloc c) corr) => C69_file g ok hL X hX hs base iconf n (charge c) (convolution g.L (q c)) corr (hcs corr hcorr) file
      have hfil : ((n, c) :: l).filter (fun p => corrDue measCorr p.1) = (n, c) :: l.filter (fun p => corrDue measCorr p.1) := by
        rw [List.filter_cons]; simp only [hdue, if_true]
      refine ⟨?_, ?_⟩
      · obtain ⟨⟨f1, b1, h1⟩, -⟩ := hst corr hcorr
        obtain ⟨⟨f2, b2, h2⟩, -⟩ := ih f1 b1
        exact ⟨f2, b2, CorrFile.store _ _ _ _ _ _ _ _ _ _ hdue hcorr h1 h2⟩
      · intro file' base' h
        cases h with
        | skip _ _ _ _ _ _ _ h => rw [hdue] at h; exact absurd h (by decide)
        | store _ _ _ corr _ _ f1 b1 _ _ _ hcorr h1 h2 =>
          obtain ⟨e1, e2, e3, e4, e5, e6⟩ := (hst corr hcorr).2 f1 b1 h1
          obtain ⟨i1, i2, i3⟩ := (ih f1 b1).2 file' base' h2
          simp only [hfil, List.length_cons]
          have hb1 : b1 = base + (3 + sextVol g.L) := by omega
          have hkeep : ∀ w, base ≤ w → w < b1 → file' w = f1 w := fun w _ h => i3 w (Or.inl h)
          refine ⟨by rw [i1, hb1]; ring, fun k hk => ?_, fun w hw => ?_⟩
          · cases k with
            | zero =>
              simp only [Nat.zero_mul, Nat.add_zero, List.getElem_cons_zero]
              refine ⟨?_, ?_, ?_, fun p hp => ?_⟩
              · rw [hkeep _ (by omega) (by omega), e2]
              · rw [hkeep _ (by omega) (by omega), e3]
              · rw [hkeep _ (by omega) (by omega), e4]
              · rw [hkeep _ (by omega) (by omega), e5 p hp]
            | succ k =>
              have := i2 k (by omega)
              simp only [List.getElem_cons_succ]
              rw [show base + (k + 1) * (3 + sextVol g.L) = b1 + k * (3 + sextVol g.L) by rw [hb1]; ring]
              exact this
          · have hb' : b1 ≤ base' := by rw [i1]; omega
            rw [i3 w (by omega), e6 w (by omega)]
    · have hdue' : corrDue measCorr n = false := by simpa using hdue
      have hfil : ((n, c) :: l).filter (fun p => corrDue measCorr p.1) = l.filter (fun p => corrDue measCorr p.1) := by
        rw [List.filter_cons]; simp only [hdue', Bool.false_eq_true, if_false]
      simp only [hfil]
      refine ⟨?_, ?_⟩
      · obtain ⟨⟨f2, b2, h2⟩, -⟩ := ih file base
        exact ⟨f2, b2, CorrFile.skip _ _ _ _ _ _ _ hdue' h2⟩
      · intro file' base' h
        cases h with
        | skip _ _ _ _ _ _ _ _ h => exact (ih file base).2 file' base' h
        | store _ _ _ corr _ _ f1 b1 _ _ h => rw [hdue'] at h; exact absurd h (by decide)

/-- C69: the correlators are computed only after a number of steps that is multiple of measCorr, never if it is zero -/
theorem C69_corr_due (measCorr n : Nat) : corrDue measCorr n = true ↔ 0 < measCorr ∧ measCorr ∣ n := by
  unfold corrDue
  simp only [Bool.and_eq_true, decide_eq_true_eq]
  constructor
  · rintro ⟨h1, h2⟩
    refine ⟨by omega, ?_⟩
    exact_mod_cast Int.dvd_of_tmod_eq_zero h2
  · rintro ⟨h1, h2⟩
    exact ⟨by omega, Int.tmod_eq_zero_of_dvd (by exact_mod_cast h2)⟩

/-- on one rank all the conditions on the remappings are met -/
theorem one_rank_ok (g : Geo) (ok : g.Ok) (hL : ∀ mu, 2 ∣ g.L mu) (hR : ∀ mu, g.R mu = 1) (X : Nat → Nat → Coords) (hX : CoordTable g X) :
    CopyOk g (topoIndex g X) ∧ ∀ mu, DirOk g X mu := by
  refine ⟨one_rank_copy g ok hL X hX ?_, fun mu => ?_⟩
  · unfold Geo.nranks volOfLx dirs
    simp [hR]
  · have : ∃ d, (perp mu).head? = some d := by revert mu; decide
    obtain ⟨d, h⟩ := this
    exact C25_slabs g ok X hX mu d h (fun nu _ => hR nu)

/-- instance of the hypotheses: one rank, and the lattice of any even sides -/
example : ∃ X, (Geo.mk ![8, 4, 6, 2] ![1, 1, 1, 1]).Ok ∧ CoordTable ⟨![8, 4, 6, 2], ![1, 1, 1, 1]⟩ X ∧ CopyOk ⟨![8, 4, 6, 2], ![1, 1, 1, 1]⟩ (topoIndex ⟨![8, 4, 6, 2], ![1, 1, 1, 1]⟩ X) ∧
    ∀ mu, DirOk ⟨![8, 4, 6, 2], ![1, 1, 1, 1]⟩ X mu :=
  ⟨siteCoords ⟨![8, 4, 6, 2], ![1, 1, 1, 1]⟩, by decide, siteCoords_table _ (by decide), one_rank_ok _ (by decide) (by decide) (by decide) _ (siteCoords_table _ (by decide))⟩

end Nissa.Topo
