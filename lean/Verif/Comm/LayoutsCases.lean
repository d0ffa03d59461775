/- C25, C35: concrete lattices: instances of the hypotheses, and lattices on which the code does not do what it should. -/
import Verif.Comm.PropsLayouts
set_option linter.all false

namespace Nissa.Layouts
open Nissa.Lx Nissa.A2A

/-- coordinates of the local sites, in closed form -/
def siteCoords (g : Geo) (rk i : Nat) : Coords := fun mu => coordOfLx rk g.R mu * g.loc mu + coordOfLx i g.loc mu

theorem siteCoords_table (g : Geo) (ok : g.Ok) : CoordTable g (siteCoords g) := by
  intro rk hr i hi
  obtain ⟨hr1, hr2⟩ := coordOfLx_spec ok.R_pos hr
  have hi' := hi
  rw [locVol_eq ok] at hi'
  obtain ⟨hi1, hi2⟩ := coordOfLx_spec (loc_pos ok) hi'
  have hlt : ∀ mu, siteCoords g rk i mu < g.L mu := by
    intro mu
    unfold siteCoords
    rw [L_eq ok]
    calc coordOfLx rk g.R mu * g.loc mu + coordOfLx i g.loc mu < coordOfLx rk g.R mu * g.loc mu + g.loc mu := by have := hi1 mu; omega
      _ = (coordOfLx rk g.R mu + 1) * g.loc mu := by ring
      _ ≤ _ := Nat.mul_le_mul_right _ (hr1 mu)
  have hp : getLoclxAndRankOfCoords g (siteCoords g rk i) = (rk, i) := by
    have hd : ∀ mu, (coordOfLx rk g.R mu * g.loc mu + coordOfLx i g.loc mu) / g.loc mu = coordOfLx rk g.R mu := by
      intro mu
      rw [Nat.mul_comm, Nat.mul_add_div (loc_pos ok mu), Nat.div_eq_of_lt (hi1 mu), Nat.add_zero]
    simp only [getLoclxAndRankOfCoords, siteCoords, hd, Nat.add_sub_cancel_left]
    exact Prod.ext hr2 hi2
  have := (C02_rank_and_loclx g ok _ hlt).2.2.2.1
  rw [hp] at this
  exact this

/-! ### Instances -/

/-- the time divided among four ranks -/
def geoT : Geo := ⟨![8, 4, 4, 6], ![4, 1, 1, 1]⟩

example : geoT.Ok ∧ CoordTable geoT (siteCoords geoT) ∧ CopyOk geoT (indexToIldg geoT (siteCoords geoT)) ∧ CopyOk geoT (indexFromIldg geoT) := by
  have ok : geoT.Ok := by decide
  have h := C35_time_slabs geoT ok _ (siteCoords_table geoT ok) (by decide)
  exact ⟨ok, siteCoords_table geoT ok, h.1, h.2⟩

example : PerpDivides geoT 2 ∧ CopyOk geoT (locDirMaker geoT (siteCoords geoT) 2) ∧ CopyOk geoT (locDirUnmaker geoT 2) :=
  C25_slabs geoT (by decide) _ (siteCoords_table geoT (by decide)) 2 0 (by decide) (by decide)

/-! ### One direction local, orthogonal sites not divisible -/

/-- three ranks along the direction 3 -/
def geoD : Geo := ⟨![2, 2, 2, 6], ![1, 1, 1, 3]⟩

/-- C25 does not hold when the number of orthogonal sites (here 8) is not a multiple of the number of ranks (here 3): the first rank has
to receive 18 elements but places only the first 16 it gets, because it sends 16; the last of its lines is left as it was (0) in two
points. Here the field is 100 + the index of the site. -/
theorem C25_violated_not_divisible :
    geoD.Ok ∧ ¬ PerpDivides geoD 3 ∧ locdSize geoD 3 0 = 18 ∧
    let sl := remapList 3 (fun _ => 16) (locDirMaker geoD (siteCoords geoD) 3)
    (∀ r < 3, (setup 3 sl (fun _ => 0) r).isSome = true) ∧
    (communicate (commsOf 3 sl (fun _ => 0)) 0 (List.range 16) (fun _ => 0) (fun q i => 100 * (q + 1) + i) (fun _ => 0)).map (fun res => (List.range 18).map res)
      = some [100, 101, 200, 201, 300, 301, 102, 103, 202, 203, 302, 303, 104, 105, 204, 205, 0, 0] := by
  refine ⟨by decide, by unfold PerpDivides; decide, by decide, by decide +kernel, by decide +kernel⟩

/-- the number of orthogonal sites of the last ranks can be negative -/
theorem C25_violated_negative_size : (Geo.mk ![4, 4, 4, 6] ![2, 2, 2, 3]).Ok ∧ perpSize ⟨![4, 4, 4, 6], ![2, 2, 2, 3]⟩ 3 23 = -5 := by
  refine ⟨by decide, by decide⟩

/-! ### ILDG, wrong amount copied locally -/

def geoI : Geo := ⟨![2, 2, 6, 4], ![1, 1, 3, 2]⟩

/-- C35 does not hold on this lattice: reading, rank 5 copies 4 elements out of the 8 that come from itself; what should be element
`p` of the file is uninitialised memory (here 7) -/
theorem C35_violated_read :
    geoI.Ok ∧ geoI.nranks = 6 ∧ geoI.locVol = 16 ∧
    let sl := remapList 6 (fun _ => 16) (indexFromIldg geoI)
    (∀ r < 6, (setup 6 sl (fun _ => 0) r).isSome = true) ∧
    ∃ i < 16, (communicate (commsOf 6 sl (fun _ => 0)) 5 (List.range 16) (fun _ => 7) (fun q i => 100 + 16 * q + i) (fun _ => 0)).map (fun res => res i) = some 7 := by
  refine ⟨by decide, by decide, by decide, by decide +kernel, 15, by decide, by decide +kernel⟩

/-- C35: writing from the same lattice rank 5 looks for the amount to be copied locally outside of the array -/
theorem C35_violated_write :
    let sl := remapList 6 (fun _ => 16) (indexToIldg geoI (siteCoords geoI))
    (∀ r < 6, (setup 6 sl (fun _ => 0) r).isSome = true) ∧
    (communicate (commsOf 6 sl (fun _ => 0)) 5 (List.range 16) (fun _ => 7) (fun q i => 100 + 16 * q + i) (fun _ => 0)).isNone = true := by
  refine ⟨by decide +kernel, by decide +kernel⟩

end Nissa.Layouts
