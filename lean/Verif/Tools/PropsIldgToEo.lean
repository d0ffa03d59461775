/- C72: conversion of a configuration to the even/odd layout. -/
import Verif.Tools.IldgToEo
set_option linter.all false

namespace Nissa.ToEo
open Nissa.Lx Nissa.A2A Nissa.Layouts Nissa.Sten Nissa.Gauge

/-! ### Specification -/

/-- the sizes the tool can have: time, and three equal space directions -/
def Cubic (g : Geo) : Prop := g.L 1 = g.L 3 ∧ g.L 2 = g.L 3

/-- number of a site of odd parity, counting only the odd ones in the order in which x runs faster, then y, z, t -/
def oddNumber (L c : Coords) : Nat := filePlace L c / 2

/-- place in the file of the link in direction `mu` starting from (`back=false`) or arriving to (`back=true`) the odd site `c`: for each site, the
directions are in the order t, z, y, x, each with the two links -/
def place (L c : Coords) (mu : Dir) (back : Bool) : Nat := 8 * oddNumber L c + 2 * (match mu with | 0 => 0 | 1 => 3 | 2 => 2 | 3 => 1) + (if back then 1 else 0)

/-! ### The order -/

theorem coordParity_eq (c : Coords) : coordParity c = par c := by
  unfold coordParity par dirs
  simp only [List.foldl_cons, List.foldl_nil, Nat.zero_add]

theorem par_lt (c : Coords) : par c < 2 := Nat.mod_lt _ (by decide)

/-- the coordinates with x and z exchanged -/
def swp (c : Coords) : Coords := fun nu => c (muOrd nu)

theorem fold_swp (c : Coords) : dirs.foldl (fun g nu => Function.update g (muOrd nu) (c nu)) (fun _ => 0) = swp c := by
  funext nu
  unfold dirs swp muOrd
  simp only [List.foldl_cons, List.foldl_nil]
  fin_cases nu <;> simp [Function.update_apply] <;> rfl

theorem lx_swp (L c : Coords) (h : L 1 = L 3 ∧ L 2 = L 3) : lxOfCoord (swp c) L = filePlace L c := by
  unfold lxOfCoord mix dirs swp muOrd filePlace
  simp [h.1, h.2]

/-- the site to which a link is attached: the odd one of the two -/
def oddEnd (g : Geo) (c : Coords) (mu : Dir) : Coords := if par c = 0 then tshift g c mu 1 else c

theorem ord_val (mu : Dir) : ((muOrd mu).val = match mu with | 0 => 0 | 1 => 3 | 2 => 2 | 3 => 1) ∧ muOrd (muOrd mu) = mu := by
  fin_cases mu <;> exact ⟨rfl, rfl⟩

theorem L_swp {L : Coords} (h : L 1 = L 3 ∧ L 2 = L 3) (mu : Dir) : L (muOrd mu) = L mu := by
  fin_cases mu
  · rfl
  · exact h.1.symm
  · rfl
  · exact h.1

theorem globDest_eq (g : Geo) (hc : Cubic g) (c : Coords) (mu : Dir) :
    globDest g.L c mu = place g.L (oddEnd g c mu) mu (decide (par c = 0)) := by
  unfold globDest
  simp only
  rw [fold_swp, coordParity_eq]
  unfold place oddEnd oddNumber
  rw [← (ord_val mu).1]
  by_cases h : par c = 0
  · simp only [h, if_true, ne_eq, one_ne_zero, not_false_eq_true, decide_true]
    have : Function.update (swp c) (muOrd mu) ((swp c (muOrd mu) + 1) % g.L (muOrd mu)) = swp (tshift g c mu 1) := by
      funext nu
      unfold swp tshift
      simp only [Function.update_apply]
      by_cases hn : nu = muOrd mu
      · subst hn
        rw [(ord_val mu).2, L_swp hc]
        simp only [if_true]
        rw [show ((c mu : Int) + 1) = ((c mu + 1 : Nat) : Int) by push_cast; rfl, ← Int.natCast_mod, Int.toNat_natCast]
      · have : muOrd nu ≠ mu := fun h => hn (by rw [← h, (ord_val nu).2])
        simp [hn, this]
    rw [this, lx_swp _ _ hc]
    omega
  · simp only [h, if_false, ne_eq, not_true_eq_false, decide_false]
    rw [lx_swp _ _ hc]
    simp
    omega

section
variable {g : Geo} (ok : g.Ok) (eo : EoOk g)
include ok eo

theorem even_L (mu : Dir) : 2 ∣ g.L mu := by
  rw [L_eq ok mu]
  exact Dvd.dvd.mul_left (Nat.dvd_of_mod_eq_zero (eo mu)) _

/-- the odd site with a given number -/
def oddSite (g : Geo) (k : Nat) : Coords :=
  let c := coordsOfIldg g.L (2 * k)
  if par c = 1 then c else Function.update c 1 (c 1 + 1)

theorem place_mod (c : Coords) : filePlace g.L c % 2 = c 1 % 2 := by
  obtain ⟨k, hk⟩ := even_L ok eo 1
  unfold filePlace
  rw [hk, Nat.mul_left_comm]
  omega

theorem oddSite_spec (k : Nat) (hk : 2 * k < g.glbVol) : oddSite g k ∈ box g.L ∧ par (oddSite g k) = 1 ∧ filePlace g.L (oddSite g k) / 2 = k := by
  have ho := ildg_order g.L (L_pos ok)
  have h1 := ho.in_box (2 * k) hk
  have h2 := ho.right (2 * k) hk
  rw [filePlace_eq] at h2
  unfold oddSite
  generalize hcc : coordsOfIldg g.L (2 * k) = c at h1 h2
  simp only
  have h3 := place_mod ok eo c
  have h4 : c 1 % 2 = 0 := by rw [← h3, h2]; omega
  obtain ⟨m, hm⟩ := even_L ok eo 1
  split
  · rename_i hp
    exact ⟨mem_box.2 h1, hp, by omega⟩
  · rename_i hp
    have hlt : c 1 + 1 < g.L 1 := by have := h1 1; omega
    refine ⟨mem_box.2 (fun mu => ?_), ?_, ?_⟩
    · by_cases hmu : mu = 1
      · subst hmu; simpa using hlt
      · rw [Function.update_of_ne hmu]; exact h1 mu
    · have := par_lt c
      unfold par at hp this ⊢
      simp only [Function.update_apply]
      simp
      omega
    · have : filePlace g.L (Function.update c 1 (c 1 + 1)) = filePlace g.L c + 1 := by
        unfold filePlace
        simp [Function.update_apply]
        omega
      rw [this]; omega

theorem oddSite_number {c : Coords} (hc : c ∈ box g.L) (hp : par c = 1) : oddSite g (filePlace g.L c / 2) = c ∧ 2 * (filePlace g.L c / 2) < g.glbVol := by
  have ho := ildg_order g.L (L_pos ok)
  rw [mem_box] at hc
  have hlt := ho.lt c hc
  rw [filePlace_eq] at hlt
  have h3 := place_mod ok eo c
  refine ⟨?_, by show _ < volOfLx g.L; omega⟩
  unfold oddSite
  by_cases h : c 1 % 2 = 0
  · have : 2 * (filePlace g.L c / 2) = filePlace g.L c := by omega
    rw [this]
    have h5 := ho.left c hc
    rw [filePlace_eq] at h5
    rw [h5]; simp [hp]
  · have h5 := ho.left (Function.update c 1 (c 1 - 1)) (fun mu => by
      by_cases hmu : mu = 1
      · subst hmu; have := hc 1; simp; omega
      · rw [Function.update_of_ne hmu]; exact hc mu)
    rw [filePlace_eq] at h5
    have : filePlace g.L (Function.update c 1 (c 1 - 1)) = 2 * (filePlace g.L c / 2) := by
      have e : filePlace g.L (Function.update c 1 (c 1 - 1)) + 1 = filePlace g.L c := by
        unfold filePlace
        simp [Function.update_apply]
        omega
      omega
    rw [this] at h5
    rw [h5]
    have hpar : par (Function.update c 1 (c 1 - 1)) ≠ 1 := by
      unfold par at hp ⊢
      simp [Function.update_apply]
      omega
    simp only [hpar, if_false]
    funext mu
    by_cases hmu : mu = 1
    · subst hmu; simp; omega
    · simp [hmu]

end

/-- C72: the odd sites are numbered from 0 to half of the volume, each once, in the order of the sites -/
theorem C72_order (g : Geo) (ok : g.Ok) (eo : EoOk g) :
    (∀ c ∈ boxP g 1, oddNumber g.L c < g.glbVol / 2) ∧ (∀ k < g.glbVol / 2, ∃! c, c ∈ boxP g 1 ∧ oddNumber g.L c = k) ∧
    ∀ c ∈ boxP g 1, ∀ c' ∈ boxP g 1, filePlace g.L c < filePlace g.L c' → oddNumber g.L c < oddNumber g.L c' := by
  have ev : g.glbVol % 2 = 0 := by
    unfold Geo.glbVol volOfLx dirs
    obtain ⟨k, hk⟩ := even_L ok eo 3
    simp only [List.foldl_cons, List.foldl_nil]
    rw [hk, Nat.mul_left_comm]
    omega
  refine ⟨fun c hc => ?_, fun k hk => ?_, fun c hc c' hc' hlt => ?_⟩
  · have := (oddSite_number ok eo (mem_boxP.1 hc).1 (mem_boxP.1 hc).2).2
    unfold oddNumber; omega
  · obtain ⟨h1, h2, h3⟩ := oddSite_spec ok eo k (by omega)
    refine ⟨oddSite g k, ⟨mem_boxP.2 ⟨h1, h2⟩, h3⟩, fun c ⟨hc, hk⟩ => ?_⟩
    rw [← (oddSite_number ok eo (mem_boxP.1 hc).1 (mem_boxP.1 hc).2).1]
    unfold oddNumber at hk
    rw [hk]
  · by_contra hcon
    have e : filePlace g.L c / 2 = filePlace g.L c' / 2 := by unfold oddNumber at hcon; omega
    have h1 := (oddSite_number ok eo (mem_boxP.1 hc).1 (mem_boxP.1 hc).2).1
    have h2 := (oddSite_number ok eo (mem_boxP.1 hc').1 (mem_boxP.1 hc').2).1
    rw [e, h2] at h1
    rw [h1] at hlt
    omega

/-! ### The correspondence -/

/-- the link found at a place of the file -/
def linkAt (g : Geo) (p : Nat) : Coords × Dir :=
  let mu := muOrd (dirOf (p % 8 / 2))
  (if p % 2 = 0 then oddSite g (p / 8) else tshift g (oddSite g (p / 8)) mu (-1), mu)

theorem dirOf_val (mu : Dir) : dirOf mu.val = mu := by
  unfold dirOf; ext; simp [Nat.mod_eq_of_lt mu.isLt]

theorem place_eq (L c : Coords) (mu : Dir) (b : Bool) : place L c mu b = 8 * (filePlace L c / 2) + 2 * (muOrd mu).val + (if b then 1 else 0) := by
  unfold place oddNumber; rw [← (ord_val mu).1]

section
variable {g : Geo} (ok : g.Ok) (eo : EoOk g)
include ok eo

theorem oddEnd_spec {c : Coords} (hc : c ∈ box g.L) (mu : Dir) : oddEnd g c mu ∈ box g.L ∧ par (oddEnd g c mu) = 1 := by
  unfold oddEnd
  split
  · rename_i h
    exact ⟨tshift_mem_box ok hc mu 1, by rw [par_tshift ok eo c mu (Or.inl rfl), h]⟩
  · rename_i h
    have := par_lt c
    exact ⟨hc, by omega⟩

theorem linkAt_dest (hcu : Cubic g) {c : Coords} (hc : c ∈ box g.L) (mu : Dir) :
    globDest g.L c mu < 4 * g.glbVol ∧ linkAt g (globDest g.L c mu) = (c, mu) := by
  rw [globDest_eq g hcu, place_eq]
  obtain ⟨h1, h2⟩ := oddEnd_spec ok eo hc mu
  obtain ⟨h3, h4⟩ := oddSite_number ok eo h1 h2
  generalize hk : filePlace g.L (oddEnd g c mu) / 2 = k at h3 h4
  have hm := (muOrd mu).isLt
  have hb : (if decide (par c = 0) = true then 1 else 0) < 2 := by split <;> omega
  generalize hbb : (if decide (par c = 0) = true then 1 else 0) = b at hb
  have ev : g.glbVol % 2 = 0 := by
    unfold Geo.glbVol volOfLx dirs
    obtain ⟨k, hk⟩ := even_L ok eo 3
    simp only [List.foldl_cons, List.foldl_nil]
    rw [hk, Nat.mul_left_comm]
    omega
  refine ⟨by omega, ?_⟩
  unfold linkAt
  rw [show (8 * k + 2 * (muOrd mu).val + b) % 8 / 2 = (muOrd mu).val by omega, show (8 * k + 2 * (muOrd mu).val + b) / 8 = k by omega,
    show (8 * k + 2 * (muOrd mu).val + b) % 2 = b by omega, dirOf_val, (ord_val mu).2, h3]
  simp only
  by_cases h : par c = 0
  · have : b = 1 := by rw [← hbb]; simp [h]
    subst this
    simp only [one_ne_zero, if_false]
    unfold oddEnd
    rw [if_pos h, Nissa.Paths.tshift_back ok hc mu 1 (Or.inl rfl)]
  · have : b = 0 := by rw [← hbb]; simp [h]
    subst this
    simp only [if_true]
    unfold oddEnd
    rw [if_neg h]

theorem dest_linkAt (hcu : Cubic g) {p : Nat} (hp : p < 4 * g.glbVol) :
    (linkAt g p).1 ∈ box g.L ∧ globDest g.L (linkAt g p).1 (linkAt g p).2 = p := by
  obtain ⟨h1, h2, h3⟩ := oddSite_spec ok eo (p / 8) (by omega)
  have hlt : p % 8 / 2 < 4 := by omega
  have hd : (dirOf (p % 8 / 2)).val = p % 8 / 2 := Nat.mod_eq_of_lt hlt
  have hmu : (linkAt g p).2 = muOrd (dirOf (p % 8 / 2)) := rfl
  by_cases h : p % 2 = 0
  · have hl : (linkAt g p).1 = oddSite g (p / 8) := by unfold linkAt; simp only [h, if_true]
    rw [hl, hmu, globDest_eq g hcu, place_eq, (ord_val _).2, hd]
    have e : oddEnd g (oddSite g (p / 8)) (muOrd (dirOf (p % 8 / 2))) = oddSite g (p / 8) := by unfold oddEnd; rw [if_neg (by omega)]
    refine ⟨h1, ?_⟩
    rw [e, h3]
    simp [h2]
    omega
  · have hl : (linkAt g p).1 = tshift g (oddSite g (p / 8)) (muOrd (dirOf (p % 8 / 2))) (-1) := by unfold linkAt; simp only [h, if_false]
    rw [hl, hmu, globDest_eq g hcu, place_eq, (ord_val _).2, hd]
    refine ⟨tshift_mem_box ok h1 _ _, ?_⟩
    have hpar := par_tshift ok eo (oddSite g (p / 8)) (muOrd (dirOf (p % 8 / 2))) (Or.inr rfl : (-1 : Int) = 1 ∨ (-1 : Int) = -1)
    rw [h2] at hpar
    have e : oddEnd g (tshift g (oddSite g (p / 8)) (muOrd (dirOf (p % 8 / 2))) (-1)) (muOrd (dirOf (p % 8 / 2))) = oddSite g (p / 8) := by
      unfold oddEnd
      rw [if_pos hpar]
      exact Nissa.Paths.tshift_back ok h1 _ (-1) (Or.inr rfl)
    rw [e, h3]
    simp [hpar]
    omega

end

/-- the element of the ranks found at a place -/
def invNeo (g : Geo) (r j : Nat) : Nat × Nat :=
  let l := linkAt g (r * (4 * g.locVol) + j)
  ((getLoclxAndRankOfCoords g l.1).1, 4 * (getLoclxAndRankOfCoords g l.1).2 + l.2.val)

theorem locVol_even {g : Geo} (ok : g.Ok) (eo : EoOk g) : 8 * locVolh g = 4 * g.locVol := by
  have ev : g.locVol % 2 = 0 := by
    rw [locVol_eq ok]
    unfold volOfLx dirs
    obtain ⟨k, hk⟩ := Nat.dvd_of_mod_eq_zero (eo 3)
    simp only [List.foldl_cons, List.foldl_nil]
    rw [hk, Nat.mul_left_comm]
    omega
  unfold locVolh; omega

theorem indexToNeo_eq {g : Geo} (ok : g.Ok) (eo : EoOk g) (X : Nat → Nat → Coords) (r iel : Nat) :
    indexToNeo g X r iel = (globDest g.L (X r (iel / 4)) (dirOf (iel % 4)) / (4 * g.locVol), globDest g.L (X r (iel / 4)) (dirOf (iel % 4)) % (4 * g.locVol)) := by
  unfold indexToNeo
  simp only
  rw [Nat.mul_assoc, locVol_even ok eo, show iel - iel / 4 * 4 = iel % 4 by omega]
  congr 1
  have := Nat.div_add_mod (globDest g.L (X r (iel / 4)) (dirOf (iel % 4))) (4 * g.locVol)
  rw [Nat.mul_comm] at this
  omega

theorem neo_bij (g : Geo) (ok : g.Ok) (eo : EoOk g) (hcu : Cubic g) (X : Nat → Nat → Coords) (hX : CoordTable g X) :
    Bij g.nranks (fun _ => 4 * g.locVol) (fun _ => 4 * g.locVol) (indexToNeo g X) (invNeo g) := by
  have hv : g.glbVol = g.nranks * g.locVol := glbVol_eq g ok
  have hl := locVol_pos g ok
  have hlt : ∀ r i, r < g.nranks → i < 4 * g.locVol → r * (4 * g.locVol) + i < 4 * g.glbVol := by
    intro r i hr hi
    rw [hv]
    calc r * (4 * g.locVol) + i < r * (4 * g.locVol) + 4 * g.locVol := by omega
      _ = (r + 1) * (4 * g.locVol) := by ring
      _ ≤ g.nranks * (4 * g.locVol) := Nat.mul_le_mul_right _ hr
      _ = _ := by ring
  refine ⟨fun r i hr hi => ?_, fun r i hr hi => ?_, fun r i hr hi => ?_, fun r i hr hi => ?_⟩
  · rw [indexToNeo_eq ok eo]
    obtain ⟨h1, h2⟩ := coordTable_of g ok X hX r (i / 4) hr (by omega)
    have h3 := (linkAt_dest ok eo hcu (mem_box.2 h1) (dirOf (i % 4))).1
    refine ⟨?_, Nat.mod_lt _ (by omega)⟩
    rw [Nat.div_lt_iff_lt_mul (by omega)]
    calc _ < _ := h3
      _ = _ := by rw [hv]; ring
  · obtain ⟨h1, -⟩ := dest_linkAt ok eo hcu (hlt r i hr hi)
    obtain ⟨h2, h3, -⟩ := C02_rank_and_loclx g ok _ (mem_box.1 h1)
    have := (linkAt g (r * (4 * g.locVol) + i)).2.isLt
    exact ⟨h2, by show 4 * _ + _ < 4 * g.locVol; omega⟩
  · rw [indexToNeo_eq ok eo]
    obtain ⟨h1, h2⟩ := coordTable_of g ok X hX r (i / 4) hr (by omega)
    have h3 := (linkAt_dest ok eo hcu (mem_box.2 h1) (dirOf (i % 4))).2
    unfold invNeo
    simp only
    rw [Nat.div_add_mod', h3]
    simp only
    rw [h2]
    refine Prod.ext rfl ?_
    show 4 * (i / 4) + (i % 4 % 4) = i
    omega
  · obtain ⟨h1, h2⟩ := dest_linkAt ok eo hcu (hlt r i hr hi)
    rw [indexToNeo_eq ok eo]
    unfold invNeo
    simp only
    have hmu := (linkAt g (r * (4 * g.locVol) + i)).2.isLt
    generalize (linkAt g (r * (4 * g.locVol) + i)) = l at h1 h2 hmu
    rw [show (4 * (getLoclxAndRankOfCoords g l.1).2 + l.2.val) / 4 = (getLoclxAndRankOfCoords g l.1).2 by omega,
      show (4 * (getLoclxAndRankOfCoords g l.1).2 + l.2.val) % 4 = l.2.val by omega, dirOf_val, coordTable_at g ok X hX _ (mem_box.1 h1), h2]
    have := entry_rank (a := r) hi
    rw [this.1, this.2]

/-! ### The file -/

theorem writeBytes_in (f : File) (a n : Nat) (b : Nat → Nat) (p : Nat) (h : a ≤ p ∧ p < a + n) : writeBytes f a n b p = some (b (p - a)) := by
  unfold writeBytes; rw [if_pos h]

theorem writeBytes_out (f : File) (a n : Nat) (b : Nat → Nat) (p : Nat) (h : ¬ (a ≤ p ∧ p < a + n)) (hf : f p ≠ none ∨ a ≤ p) : writeBytes f a n b p = f p := by
  unfold writeBytes; rw [if_neg h]
  rcases hf with hf | hf
  · cases h' : f p with
    | none => exact absurd h' hf
    | some x => rfl
  · cases h' : f p with
    | none => simp; omega
    | some x => rfl

/-- bytes of a place of the file written by the ranks in any order, each its own piece -/
theorem pieces (V : Nat) (hV : 0 < V) (data : Nat → Nat → Nat) (order : List Nat) (hn : order.Nodup) (f0 : File) (p : Nat) :
    (∀ r ∈ order, 24 + r * V ≤ p → p < 24 + r * V + V →
      order.foldl (fun f r => writeBytes f (24 + r * V) V (data r)) f0 p = some (data r (p - (24 + r * V)))) ∧
    ((∀ r ∈ order, ¬ (24 + r * V ≤ p ∧ p < 24 + r * V + V)) → (f0 p ≠ none ∨ ∀ r ∈ order, 24 + r * V ≤ p) →
      order.foldl (fun f r => writeBytes f (24 + r * V) V (data r)) f0 p = f0 p) := by
  induction order generalizing f0 with
  | nil => exact ⟨fun r h => absurd h (by simp), fun _ _ => rfl⟩
  | cons q l ih =>
    have ih' := ih (List.nodup_cons.1 hn).2 (writeBytes f0 (24 + q * V) V (data q))
    have sep : ∀ r, r ≠ q → (24 + r * V ≤ p ∧ p < 24 + r * V + V) → (24 + q * V ≤ p ∧ p < 24 + q * V + V) → False := by
      intro r hr h1 h2
      rcases Nat.lt_or_gt_of_ne hr with h | h
      · have : (r + 1) * V ≤ q * V := Nat.mul_le_mul_right _ h
        rw [Nat.succ_mul] at this; omega
      · have : (q + 1) * V ≤ r * V := Nat.mul_le_mul_right _ h
        rw [Nat.succ_mul] at this; omega
    refine ⟨fun r hr h1 h2 => ?_, fun h hf => ?_⟩
    · rw [List.foldl_cons]
      rcases List.mem_cons.1 hr with h | h
      · subst h
        have hw : writeBytes f0 (24 + r * V) V (data r) p = some (data r (p - (24 + r * V))) := writeBytes_in _ _ _ _ _ ⟨h1, h2⟩
        rw [ih'.2 (fun q' hq' hin => sep q' (fun e => (List.nodup_cons.1 hn).1 (e ▸ hq')) hin ⟨h1, h2⟩) (Or.inl (by rw [hw]; simp)), hw]
      · exact ih'.1 r h h1 h2
    · rw [List.foldl_cons]
      have hw : writeBytes f0 (24 + q * V) V (data q) p = f0 p := writeBytes_out _ _ _ _ _ (h q (by simp)) (hf.imp id (fun h => h q (by simp)))
      rw [ih'.2 (fun r hr => h r (by simp [hr])) (by rw [hw]; exact hf.imp id (fun h r hr => h r (by simp [hr]))), hw]

/-- the remapping of the links on all the ranks -/
def Remaps {α : Type} (g : Geo) (X : Nat → Nat → Coords) (junk : Nat → Nat) (junk' : Nat → α) (order : Nat → List Nat) (conf out buf : Nat → Nat → α) : Prop :=
  RunsTo g.nranks (remapList g.nranks (fun _ => 4 * g.locVol) (indexToNeo g X)) junk junk' order conf out buf

/-- the amount of links copied inside of each rank is read from the right entry -/
def NeoCopyOk (g : Geo) (X : Nat → Nat → Coords) : Prop :=
  ∀ r, r < g.nranks → SelfCopyOk g.nranks (remapList g.nranks (fun _ => 4 * g.locVol) (indexToNeo g X)) r

/-- C72: the file written from the links `U` contains the header and then, for each odd site in order, for each of the directions t, z, y, x the
link which starts from the site and the link which arrives to it, whatever the grid of ranks and the order in which they write; nothing follows -/
theorem C72_file_partial {α : Type} (g : Geo) (ok : g.Ok) (eo : EoOk g) (hcu : Cubic g) (X : Nat → Nat → Coords) (hX : CoordTable g X) (hs : NeoCopyOk g X)
    (U : Coords → Dir → α) (conf : Nat → Nat → α) (hconf : ∀ r i mu, r < g.nranks → i < g.locVol → conf r (4 * i + (mu : Dir).val) = U (X r i) mu)
    (junk : Nat → Nat) (junk' : Nat → α) (order : Nat → List Nat) (ho : ∀ r, r < g.nranks → (order r).Perm (List.range (4 * g.locVol)))
    (out : Nat → Nat → α) (header : Nat → Nat) (enc : α → Nat → Nat) (worder : List Nat) (hw : worder.Perm (List.range g.nranks)) :
    (∃ buf, Remaps g X junk junk' order conf out buf) ∧ ∀ buf, Remaps g X junk junk' order conf out buf →
      let file := convertFile g.locVol header enc buf worder
      (∀ p < 24, file p = some (header p)) ∧
      (∀ c ∈ boxP g 1, ∀ mu, ∀ b < 144, file (24 + 144 * place g.L c mu false + b) = some (enc (U c mu) b)) ∧
      (∀ c ∈ boxP g 1, ∀ mu, ∀ b < 144, file (24 + 144 * place g.L c mu true + b) = some (enc (U (tshift g c mu (-1)) mu) b)) ∧
      (∀ p, 24 + 144 * (4 * g.glbVol) ≤ p → file p = none) := by
  obtain ⟨h1, h2⟩ := remap_deliver (nranks_pos g ok) (neo_bij g ok eo hcu X hX) hs junk junk' order ho conf out
  refine ⟨h1, fun buf hbuf => ?_⟩
  replace h2 := (h2 buf hbuf).1
  have hl := locVol_pos g ok
  have hgl := glbVol_eq g ok
  have key : ∀ c ∈ box g.L, ∀ mu : Dir, ∀ b < 144, convertFile g.locVol header enc buf worder (24 + 144 * globDest g.L c mu + b) = some (enc (U c mu) b) := by
    intro c hc mu b hb
    obtain ⟨a1, a2, -⟩ := C02_rank_and_loclx g ok c (mem_box.1 hc)
    have hd := (linkAt_dest ok eo hcu hc mu).1
    have h3 := h2 _ (4 * (getLoclxAndRankOfCoords g c).2 + mu.val) a1 (by have := mu.isLt; omega)
    rw [hconf _ _ mu a1 a2, coordTable_at g ok X hX c (mem_box.1 hc)] at h3
    rw [indexToNeo_eq ok eo] at h3
    simp only at h3
    have hmu := mu.isLt
    rw [show (4 * (getLoclxAndRankOfCoords g c).2 + mu.val) / 4 = (getLoclxAndRankOfCoords g c).2 by omega,
      show (4 * (getLoclxAndRankOfCoords g c).2 + mu.val) % 4 = mu.val by omega, dirOf_val, coordTable_at g ok X hX c (mem_box.1 hc)] at h3
    generalize globDest g.L c mu = D at hd h3
    set V := 4 * linkBytes * g.locVol with hV
    have hVe : V = 144 * (4 * g.locVol) := by rw [hV]; unfold linkBytes; ring
    have hq := Nat.div_add_mod D (4 * g.locVol)
    have hm := Nat.mod_lt D (show 4 * g.locVol > 0 by omega)
    generalize hr : D / (4 * g.locVol) = r at hq h3
    generalize hj : D % (4 * g.locVol) = j at hq hm h3
    have hrn : r < g.nranks := by
      rw [← hr, Nat.div_lt_iff_lt_mul (by omega)]
      calc D < _ := hd
        _ = _ := by rw [hgl]; ring
    have hin : r ∈ worder := hw.mem_iff.2 (List.mem_range.2 hrn)
    have hnd : worder.Nodup := hw.nodup_iff.2 List.nodup_range
    have hpos : 24 + 144 * D + b = 24 + r * V + (144 * j + b) := by rw [← hq, hVe]; ring
    have := (pieces V (by rw [hVe]; omega) (fun r b => enc (buf r (b / linkBytes)) (b % linkBytes)) worder hnd (writeBytes (fun _ => none) 0 24 header)
      (24 + 144 * D + b)).1 r hin (by rw [hpos]; omega) (by rw [hpos, hVe]; omega)
    unfold convertFile
    have hfun : (fun (f : File) (r : Nat) => writeBytes f (24 + r * (4 * linkBytes) * g.locVol) (4 * linkBytes * g.locVol) (fun b => enc (buf r (b / linkBytes)) (b % linkBytes))) =
        fun f r => writeBytes f (24 + r * V) V (fun b => enc (buf r (b / linkBytes)) (b % linkBytes)) := by
      funext f r; rw [hV, Nat.mul_assoc]
    rw [hfun, this, hpos]
    rw [show 24 + r * V + (144 * j + b) - (24 + r * V) = 144 * j + b by omega]
    simp only [linkBytes]
    rw [show (144 * j + b) / 144 = j by omega, show (144 * j + b) % 144 = b by omega, h3]
  have hfun : ∀ V, V = 4 * linkBytes * g.locVol → (fun (f : File) (r : Nat) => writeBytes f (24 + r * (4 * linkBytes) * g.locVol) (4 * linkBytes * g.locVol) (fun b => enc (buf r (b / linkBytes)) (b % linkBytes))) =
        fun f r => writeBytes f (24 + r * V) V (fun b => enc (buf r (b / linkBytes)) (b % linkBytes)) := by
    intro V hV
    funext f r; rw [hV, Nat.mul_assoc]
  have hnd : worder.Nodup := hw.nodup_iff.2 List.nodup_range
  have hVp : 0 < 4 * linkBytes * g.locVol := by unfold linkBytes; omega
  refine ⟨fun p hp => ?_, fun c hc mu b hb => ?_, fun c hc mu b hb => ?_, fun p hp => ?_⟩
  · unfold convertFile
    rw [hfun _ rfl]
    have hw0 : writeBytes (fun _ => none) 0 24 header p = some (header p) := by rw [writeBytes_in _ _ _ _ _ ⟨by omega, by omega⟩]; simp
    rw [(pieces _ hVp (fun r b => enc (buf r (b / linkBytes)) (b % linkBytes)) worder hnd _ p).2 (fun r hr h => by omega) (Or.inl (by rw [hw0]; simp)), hw0]
  · have := key c (mem_boxP.1 hc).1 mu b hb
    rw [globDest_eq g hcu] at this
    have hp := (mem_boxP.1 hc).2
    unfold oddEnd at this
    rwa [if_neg (by omega), show decide (par c = 0) = false by simp [hp]] at this
  · have hp := (mem_boxP.1 hc).2
    have := key _ (tshift_mem_box ok (mem_boxP.1 hc).1 mu (-1)) mu b hb
    rw [globDest_eq g hcu] at this
    have hpar := par_tshift ok eo c mu (Or.inr rfl : (-1 : Int) = 1 ∨ (-1 : Int) = -1)
    rw [hp] at hpar
    unfold oddEnd at this
    have hbk := Nissa.Paths.tshift_back ok (mem_boxP.1 hc).1 mu (-1) (Or.inr rfl)
    rw [neg_neg] at hbk
    rw [if_pos hpar, hpar, hbk] at this
    exact this
  · unfold convertFile
    rw [hfun _ rfl]
    have hlast : ∀ r ∈ worder, 24 + r * (4 * linkBytes * g.locVol) + 4 * linkBytes * g.locVol ≤ p := by
      intro r hr
      have hrn := List.mem_range.1 (hw.mem_iff.1 hr)
      have : (r + 1) * (4 * linkBytes * g.locVol) ≤ g.nranks * (4 * linkBytes * g.locVol) := Nat.mul_le_mul_right _ hrn
      have e : g.nranks * (4 * linkBytes * g.locVol) = 144 * (4 * g.glbVol) := by rw [hgl]; unfold linkBytes; ring
      rw [Nat.succ_mul, e] at this
      omega
    rw [(pieces _ hVp (fun r b => enc (buf r (b / linkBytes)) (b % linkBytes)) worder hnd _ p).2 (fun r hr h => by have := hlast r hr; omega)
      (Or.inr (fun r hr => by have := hlast r hr; omega))]
    rw [writeBytes_out _ _ _ _ _ (by omega) (Or.inr (Nat.zero_le _))]

/-- C72: the places of the links of the odd sites fill the file, so that the file depends only on the configuration -/
theorem C72_filled (g : Geo) (ok : g.Ok) (eo : EoOk g) (hcu : Cubic g) (p : Nat) (hp : p < 4 * g.glbVol) :
    ∃! l : Coords × Dir × Bool, l.1 ∈ boxP g 1 ∧ place g.L l.1 l.2.1 l.2.2 = p := by
  obtain ⟨h1, h2, h3⟩ := oddSite_spec ok eo (p / 8) (by omega)
  have hlt : p % 8 / 2 < 4 := by omega
  have hd : (dirOf (p % 8 / 2)).val = p % 8 / 2 := Nat.mod_eq_of_lt hlt
  refine ⟨(oddSite g (p / 8), muOrd (dirOf (p % 8 / 2)), decide (p % 2 = 1)), ⟨mem_boxP.2 ⟨h1, h2⟩, ?_⟩, ?_⟩
  · rw [place_eq]
    simp only
    rw [(ord_val _).2, hd, h3]
    by_cases h : p % 2 = 1
    · simp [h]; omega
    · simp [h]; omega
  · rintro ⟨c, mu, b⟩ ⟨hc, he⟩
    simp only at hc he
    rw [place_eq] at he
    have h4 := oddSite_number ok eo (mem_boxP.1 hc).1 (mem_boxP.1 hc).2
    have hm := (muOrd mu).isLt
    have hbb : (if b = true then 1 else 0) < 2 := by split <;> omega
    have e1 : filePlace g.L c / 2 = p / 8 := by omega
    have e2 : (muOrd mu).val = p % 8 / 2 := by omega
    have e3 : (if b = true then 1 else 0) = p % 2 := by omega
    rw [e1] at h4
    refine Prod.ext h4.1.symm (Prod.ext ?_ ?_)
    · show mu = muOrd (dirOf (p % 8 / 2))
      rw [← e2, dirOf_val, (ord_val mu).2]
    · show b = decide (p % 2 = 1)
      rw [← e3]; cases b <;> simp

/-- C72: the condition on the local copy is met on one or two ranks -/
theorem C72_two_ranks (g : Geo) (ok : g.Ok) (eo : EoOk g) (hcu : Cubic g) (X : Nat → Nat → Coords) (hX : CoordTable g X) (hN : g.nranks ≤ 2) : NeoCopyOk g X := by
  have hb := remap_balanced (neo_bij g ok eo hcu X hX)
  have hn := nranks_pos g ok
  intro r hr
  unfold NeoCopyOk at *
  generalize hsl : remapList g.nranks (fun _ => 4 * g.locVol) (indexToNeo g X) = sl at *
  generalize g.nranks = N at *
  refine C24_symmetric_ok N sl r hr (fun q hq => ?_)
  by_cases hrq : r = q
  · subst hrq; exact Iff.rfl
  have hN2 : N = 2 := by omega
  subst hN2
  have hlen : ∀ l : ScatterList, l.length = (l.filter (fun e => e.2 % 2 = 0)).length + (l.filter (fun e => e.2 % 2 = 1)).length := by
    intro l
    induction l with
    | nil => rfl
    | cons e l ih =>
      rw [List.filter_cons, List.filter_cons, List.length_cons, ih]
      rcases Nat.mod_two_eq_zero_or_one e.2 with h | h <;> simp [h] <;> omega
  have h0 := hb 0 (by omega)
  rw [hlen (sl 0)] at h0
  simp only [List.range_succ, List.range_zero, List.nil_append, List.map_append, List.map_cons, List.map_nil, List.sum_append, List.sum_cons, List.sum_nil] at h0
  have e : ((sl 0).filter (fun e => e.2 % 2 = 1)).length = ((sl 1).filter (fun e => e.2 % 2 = 0)).length := by omega
  have hs : ∀ a b, Sends 2 sl a b ↔ ((sl a).filter (fun e => e.2 % 2 = b)).length ≠ 0 := by
    intro a b
    rw [Ne, List.length_eq_zero_iff, List.filter_eq_nil_iff]
    unfold Sends
    simp
  have key : Sends 2 sl 0 1 ↔ Sends 2 sl 1 0 := by rw [hs, hs, e]
  have : (r = 0 ∧ q = 1) ∨ (r = 1 ∧ q = 0) := by omega
  rcases this with ⟨h1, h2⟩ | ⟨h1, h2⟩
  · subst h1; subst h2; exact key
  · subst h1; subst h2; exact key.symm

/-! ### Cases -/

def geo2 : Geo := ⟨![4, 4, 4, 4], ![1, 2, 1, 1]⟩

example : geo2.Ok ∧ EoOk geo2 ∧ Cubic geo2 ∧ CoordTable geo2 (siteCoords geo2) ∧ NeoCopyOk geo2 (siteCoords geo2) := by
  have ok : geo2.Ok := by decide
  have eo : EoOk geo2 := by decide
  exact ⟨ok, eo, ⟨rfl, rfl⟩, siteCoords_table geo2 ok, C72_two_ranks geo2 ok eo ⟨rfl, rfl⟩ _ (siteCoords_table geo2 ok) (by decide)⟩

/-- three ranks along the time -/
def geo3 : Geo := ⟨![6, 2, 2, 2], ![3, 1, 1, 1]⟩

/-- C72 does not hold on more ranks: with the time divided among three ranks the links starting from the last even sites of a rank are sent to the
next, and what arrives from the previous one changes the position of the local copy: rank 1 copies 4 of its 60 links, so that links of its part of
the file are whatever was in memory (here 7; the links are numbered from 100) -/
theorem C72_violated_three_ranks :
    geo3.Ok ∧ EoOk geo3 ∧ Cubic geo3 ∧
    let sl := remapList 3 (fun _ => 64) (indexToNeo geo3 (siteCoords geo3))
    (∀ r < 3, (setup 3 sl (fun _ => 0) r).isSome = true) ∧
    ((communicate (commsOf 3 sl (fun _ => 0)) 1 (List.range 64) (fun _ => 7) (fun q i => 100 + 64 * q + i) (fun _ => 0)).map
      (fun res => ((List.range 64).filter (fun i => res i = 7)).length)) = some 56 := by
  refine ⟨by decide, by decide, ⟨rfl, rfl⟩, by decide +kernel, by decide +kernel⟩

end Nissa.ToEo
