/-
Remappings of a lattice field in which consecutive pieces of a global order are given to consecutive ranks.
/repo/src/io/ILDG_File.hpp:111-147 (ILDG order), /repo/src/operations/remap_vector.hpp:76-148 (one direction local),
/repo/src/geometry/geometry_lx.cpp:564-574 (sizes).
-/
import Verif.Comm.Remap
import Verif.Geometry.SumSites
set_option linter.all false

namespace Nissa.Layouts
open Nissa.Lx Nissa.A2A

/-! ### Model -/

/-- scidacMapping, geometry_lx.hpp:200: order of the directions in the file, the first is the slowest -/
def scidacMapping : List Dir := [0, 3, 2, 1]

/-- the loop at ILDG_File.hpp:133-138, on the coordinates of a site. `int` is not bounded in the model. -/
def ildgOfCoords (L c : Coords) : Nat := mix scidacMapping L c

/-- the loop at ILDG_File.hpp:116-122 -/
def coordsOfIldg (L : Coords) (i : Nat) : Coords := (scidacMapping.reverse.foldl (coordStep L) (fun _ => 0, i)).1

/-- index_to_ILDG_remapping, ILDG_File.hpp:130-147; `X rank iloc` is `glbCoordOfLoclx[iloc]` on the rank -/
def indexToIldg (g : Geo) (X : Nat → Nat → Coords) (rank iloc : Nat) : Nat × Nat :=
  (ildgOfCoords g.L (X rank iloc) / g.locVol, ildgOfCoords g.L (X rank iloc) % g.locVol)

/-- index_from_ILDG_remapping, ILDG_File.hpp:111-125 -/
def indexFromIldg (g : Geo) (rank iloc : Nat) : Nat × Nat := getLoclxAndRankOfCoords g (coordsOfIldg g.L (rank * g.locVol + iloc))

/-- directions different from `mu` in the order of the loops -/
def perp (mu : Dir) : List Dir := dirs.filter (fun nu => nu ≠ mu)

/-- max_locd_perp_size_per_dir, geometry_lx.cpp:569 -/
def maxPerp (g : Geo) (mu : Dir) : Nat := (g.glbVol / g.L mu + g.nranks - 1) / g.nranks

/-- locd_perp_size_per_dir, geometry_lx.cpp:570: it can be negative -/
def perpSize (g : Geo) (mu : Dir) (rank : Nat) : Int := min (maxPerp g mu) ((g.glbVol / g.L mu : Nat) - (maxPerp g mu * rank : Nat))

/-- locd_size_per_dir, geometry_lx.cpp:572 -/
def locdSize (g : Geo) (mu : Dir) (rank : Nat) : Int := perpSize g mu rank * g.L mu

/-- the index returned by getLocDirIndexMaker, remap_vector.hpp:77-96 -/
def locDirMaker (g : Geo) (X : Nat → Nat → Coords) (mu : Dir) (rank iloc : Nat) : Nat × Nat :=
  let p := mix (perp mu) g.L (X rank iloc)
  (p / maxPerp g mu, (p - p / maxPerp g mu * maxPerp g mu) * g.L mu + X rank iloc mu)

/-- the index returned by getLocDirIndexUnmaker, remap_vector.hpp:119-144 -/
def locDirUnmaker (g : Geo) (mu : Dir) (rank iloc : Nat) : Nat × Nat :=
  let c0 : Coords := Function.update (fun _ => 0) mu (iloc % g.L mu)
  getLoclxAndRankOfCoords g (((perp mu).reverse.foldl (coordStep g.L) (c0, iloc / g.L mu + rank * maxPerp g mu)).1)

/-! ### Orders of the sites -/

/-- a numbering of the sites of the lattice, from 0 to the volume -/
structure Order (L : Coords) (pos : Coords → Nat) (unpos : Nat → Coords) : Prop where
  lt : ∀ c, (∀ mu, c mu < L mu) → pos c < volOfLx L
  in_box : ∀ p, p < volOfLx L → ∀ mu, unpos p mu < L mu
  left : ∀ c, (∀ mu, c mu < L mu) → unpos (pos c) = c
  right : ∀ p, p < volOfLx L → pos (unpos p) = p

theorem volR_perm (s : Coords) {l l' : List Dir} (h : l.Perm l') : volR l s = volR l' s := by
  induction h with
  | nil => rfl
  | cons x _ ih => simp only [volR, ih]
  | swap x y l => simp only [volR]; ring
  | trans _ _ h1 h2 => exact h1.trans h2

theorem order_of_perm (L : Coords) (hL : ∀ mu, 0 < L mu) (ds : List Dir) (hd : ds.Perm dirs) :
    Order L (mix ds L) (fun i => (ds.reverse.foldl (coordStep L) (fun _ => 0, i)).1) := by
  have hv : volOfLx L = volR ds.reverse L := by
    rw [volOfLx_eq]; exact volR_perm L ((List.reverse_perm _).trans (hd.symm.trans (List.reverse_perm _).symm))
  have hm : ∀ d, d ∈ ds.reverse := fun d => List.mem_reverse.2 (hd.mem_iff.2 (mem_dirs d))
  have hn : ds.reverse.Nodup := List.nodup_reverse.2 (hd.nodup_iff.2 (by decide))
  have hspec := fun i (hi : i < volR ds.reverse L) => coordFold_spec L ds.reverse hn (fun _ => 0) i (fun d _ => hL d) hi
  have hlt : ∀ c, (∀ mu, c mu < L mu) → mix ds L c < volOfLx L := by
    intro c hc; rw [hv, mix_eq_mixR]; exact mixR_lt (fun d _ => hc d)
  have hin : ∀ p, p < volOfLx L → ∀ mu, (ds.reverse.foldl (coordStep L) (fun _ => 0, p)).1 mu < L mu := fun p hp mu => (hspec p (hv ▸ hp)).1 mu (hm mu)
  have hri : ∀ p, p < volOfLx L → mix ds L (ds.reverse.foldl (coordStep L) (fun _ => 0, p)).1 = p := fun p hp => by
    rw [mix_eq_mixR]; exact (hspec p (hv ▸ hp)).2.1
  refine ⟨hlt, hin, fun c hc => ?_, hri⟩
  funext d
  have h1 := hri _ (hlt c hc)
  rw [mix_eq_mixR, mix_eq_mixR] at h1
  exact mixR_inj (fun d _ => hin _ (hlt c hc) d) (fun d _ => hc d) (by rw [mix_eq_mixR]; exact h1) d (hm d)

theorem ildg_order (L : Coords) (hL : ∀ mu, 0 < L mu) : Order L (ildgOfCoords L) (coordsOfIldg L) := order_of_perm L hL _ (by decide)

theorem nranks_pos (g : Geo) (ok : g.Ok) : 0 < g.nranks := by
  have : ∀ mu, 0 < g.R mu := ok.R_pos
  unfold Geo.nranks volOfLx dirs
  simp only [List.foldl_cons, List.foldl_nil, Nat.one_mul]
  exact Nat.mul_pos (Nat.mul_pos (Nat.mul_pos (this _) (this _)) (this _)) (this _)

theorem glbVol_eq (g : Geo) (ok : g.Ok) : g.glbVol = g.nranks * g.locVol := by
  have h1 := locVol_eq ok
  unfold Geo.locVol at h1
  have : g.nranks ∣ g.glbVol := by
    unfold Geo.nranks Geo.glbVol volOfLx dirs
    simp only [List.foldl_cons, List.foldl_nil, Nat.one_mul]
    exact Nat.mul_dvd_mul (Nat.mul_dvd_mul (Nat.mul_dvd_mul (ok.dvd _) (ok.dvd _)) (ok.dvd _)) (ok.dvd _)
  exact (Nat.mul_div_cancel' this).symm

theorem locVol_pos (g : Geo) (ok : g.Ok) : 0 < g.locVol := by
  rw [locVol_eq ok]
  unfold volOfLx dirs
  simp only [List.foldl_cons, List.foldl_nil, Nat.one_mul]
  exact Nat.mul_pos (Nat.mul_pos (Nat.mul_pos (loc_pos ok _) (loc_pos ok _)) (loc_pos ok _)) (loc_pos ok _)

/-- giving `locVol` consecutive sites of an order to each rank is a one-to-one correspondence -/
theorem block_bij (g : Geo) (ok : g.Ok) (X : Nat → Nat → Coords) (hX : CoordTable g X) (pos : Coords → Nat) (unpos : Nat → Coords) (h : Order g.L pos unpos) :
    Bij g.nranks (fun _ => g.locVol) (fun _ => g.locVol) (fun r i => (pos (X r i) / g.locVol, pos (X r i) % g.locVol))
      (fun r i => getLoclxAndRankOfCoords g (unpos (r * g.locVol + i))) := by
  have hv : volOfLx g.L = g.nranks * g.locVol := glbVol_eq g ok
  have hl := locVol_pos g ok
  have hlt : ∀ r i, r < g.nranks → i < g.locVol → r * g.locVol + i < volOfLx g.L := by
    intro r i hr hi
    rw [hv]
    calc r * g.locVol + i < r * g.locVol + g.locVol := by omega
      _ = (r + 1) * g.locVol := by ring
      _ ≤ _ := Nat.mul_le_mul_right _ hr
  refine ⟨fun r i hr hi => ?_, fun r i hr hi => ?_, fun r i hr hi => ?_, fun r i hr hi => ?_⟩
  · obtain ⟨h1, h2⟩ := coordTable_of g ok X hX r i hr hi
    refine ⟨?_, Nat.mod_lt _ hl⟩
    rw [Nat.div_lt_iff_lt_mul hl, ← hv]
    exact h.lt _ h1
  · obtain ⟨h1, h2, -⟩ := C02_rank_and_loclx g ok _ (h.in_box _ (hlt r i hr hi))
    exact ⟨h1, h2⟩
  · obtain ⟨h1, h2⟩ := coordTable_of g ok X hX r i hr hi
    rw [Nat.div_add_mod', h.left _ h1, h2]
  · rw [coordTable_at g ok X hX _ (h.in_box _ (hlt r i hr hi)), h.right _ (hlt r i hr hi)]
    have := entry_rank (a := r) hi
    rw [this.1, this.2]

/-! ### Decomposition in slabs -/

/-- when only the slowest direction of the order is divided among the ranks, each site stays on its rank -/
theorem slab_local (g : Geo) (ok : g.Ok) (d : Dir) (ds : List Dir) (hd : (d :: ds).Perm dirs) (hR : ∀ nu, nu ≠ d → g.R nu = 1) (c : Coords) (hc : ∀ mu, c mu < g.L mu) :
    mix (d :: ds) g.L c / g.locVol = (getLoclxAndRankOfCoords g c).1 := by
  have hnd : (d :: ds).Nodup := hd.nodup_iff.2 (by decide)
  have hnot : ∀ nu ∈ ds, nu ≠ d := fun nu h1 h2 => (List.nodup_cons.1 hnd).1 (h2 ▸ h1)
  -- the index is the coordinate in the slow direction times a volume, plus the rest
  have hmix : mix (d :: ds) g.L c = c d * volR ds.reverse g.L + mixR ds.reverse g.L c := by
    rw [mix_eq_mixR, List.reverse_cons]
    have : ∀ l : List Dir, mixR (l ++ [d]) g.L c = c d * volR l g.L + mixR l g.L c := by
      intro l
      induction l with
      | nil => simp [mixR, volR]
      | cons e l ih => simp only [List.cons_append, mixR, volR, ih]; ring
    exact this _
  have hvol : ∀ l : List Dir, ∀ s : Coords, volR (l ++ [d]) s = s d * volR l s := by
    intro l s
    induction l with
    | nil => simp [volR]
    | cons e l ih => simp only [List.cons_append, volR, ih]; ring
  have hloc : ∀ nu ∈ ds.reverse, g.loc nu = g.L nu := fun nu h => by
    unfold Geo.loc; rw [hR nu (hnot nu (List.mem_reverse.1 h)), Nat.div_one]
  have hcongr : ∀ l : List Dir, (∀ nu ∈ l, g.loc nu = g.L nu) → volR l g.loc = volR l g.L := by
    intro l
    induction l with
    | nil => intro _; rfl
    | cons e l ih => intro h; simp only [volR]; rw [ih (fun x hx => h x (List.mem_cons_of_mem _ hx)), h e (List.mem_cons_self ..)]
  have hlv : g.locVol = g.loc d * volR ds.reverse g.L := by
    rw [locVol_eq ok, volOfLx_eq, volR_perm g.loc ((List.reverse_perm _).trans (hd.symm.trans (List.reverse_perm _).symm)), List.reverse_cons, hvol, hcongr _ hloc]
  have hlt : mixR ds.reverse g.L c < volR ds.reverse g.L := mixR_lt (fun e _ => hc e)
  have hrank : (getLoclxAndRankOfCoords g c).1 = c d / g.loc d := by
    show lxOfCoord (fun mu => c mu / g.loc mu) g.R = _
    have hz : ∀ nu, nu ≠ d → c nu / g.loc nu = 0 := fun nu h => by
      have : g.loc nu = g.L nu := by unfold Geo.loc; rw [hR nu h, Nat.div_one]
      rw [this, Nat.div_eq_of_lt (hc nu)]
    unfold lxOfCoord mix dirs
    simp only [List.foldl_cons, List.foldl_nil]
    fin_cases d <;> simp [hz, hR]
  rw [hrank, hmix, hlv, Nat.mul_comm (g.loc d), ← Nat.div_div_eq_div_mul, Nat.mul_comm, Nat.mul_add_div (by omega), Nat.div_eq_of_lt hlt, Nat.add_zero]

end Nissa.Layouts
