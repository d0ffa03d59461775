import Verif.Geometry.PropsHalo
import Verif.Geometry.PropsEo
import Verif.Geometry.SumSites

/-! # Reading a field and its neighbours on a rank

Common ground of all the kernels which read the field at a site and at its neighbours: what a rank sees of a distributed
field after `updateHalo()`/`updateEdges()`, through the neighbour tables of `/repo/src/geometry/geometry_lx.cpp:400-423` and
`/repo/src/geometry/geometry_eo.cpp:81-98`.

A distributed field is `F : rank → local index → value`.  What was never written (an index of a table which was not filled,
an element of a buffer which was not received) is a parameter (`ji`, `jv`): the theorems hold for all its values, hence a
kernel reading it could not satisfy them. -/

set_option linter.all false

namespace Nissa.Sten
open Nissa.Lx

/-- An entry of a neighbour table as index; `ji` if the table was not filled or holds a negative value -/
def idxOf (ji : Nat) : Option Int → Nat
  | some (Int.ofNat n) => n
  | _ => ji

/-- `loclxNeighup[i][mu]`.  `/repo/src/geometry/geometry_lx.cpp:400-423` -/
def upT (g : Geo) (r : Coords) (ji : Nat) (i : Nat) (mu : Dir) : Nat := idxOf ji (loclxNeigh g r 1 i mu)
/-- `loclxNeighdw[i][mu]`.  `/repo/src/geometry/geometry_lx.cpp:400-423` -/
def dwT (g : Geo) (r : Coords) (ji : Nat) (i : Nat) (mu : Dir) : Nat := idxOf ji (loclxNeigh g r (-1) i mu)

/-- Element `i` of the memory of a field on the rank `r` after `updateHalo()` and `updateEdges()`: local sites, then halo,
then edges.  `/repo/src/base/field.hpp:1148-1230` -/
def mem {V : Type} (g : Geo) (jv : V) (F : Nat → Nat → V) (r : Coords) (i : Nat) : V :=
  if i < g.locVol then F (lxOfCoord r g.R) i
  else if i < g.locVol + g.bordVol then ((haloAfterUpdate g F r).bind (fun b => b (i - g.locVol))).getD jv
  else ((edgesAfterUpdate g F r).bind (fun b => b (i - g.locVol - g.bordVol))).getD jv

/-- `loceo_neighup[p][e][mu]`.  `/repo/src/geometry/geometry_eo.cpp:81-98` -/
def eupT (g : Geo) (r : Coords) (ji : Nat) (p e : Nat) (mu : Dir) : Nat := (loceoNeigh g r 1 p mu e).getD ji
/-- `loceo_neighdw[p][e][mu]` -/
def edwT (g : Geo) (r : Coords) (ji : Nat) (p e : Nat) (mu : Dir) : Nat := (loceoNeigh g r (-1) p mu e).getD ji

/-- Element `e` of the part of parity `p` of an even/odd field on the rank `r` after `updateHalo()` and `updateEdges()`.
`/repo/src/base/field.hpp:1148-1230`, `/repo/src/base/field.hpp:1450-1500` -/
def eoMem {V : Type} (g : Geo) (jv : V) (F : Nat → Nat → Nat → V) (r : Coords) (p e : Nat) : V :=
  if e < g.locVol / 2 then F (lxOfCoord r g.R) p e
  else if e < (g.locVol + g.bordVol) / 2 then
    ((eoHaloAfterUpdate g p (fun rk e => F rk p e) r).bind (fun b => b (e - g.locVol / 2))).getD jv
  else ((eoEdgesAfterUpdate g p (fun rk e => F rk p e) r).bind (fun b => b (e - (g.locVol + g.bordVol) / 2))).getD jv

/-! ### The global field -/

/-- Specification: the value of a distributed field at a global site is the one stored by the rank owning the site -/
def glob {V : Type} (g : Geo) (F : Nat → Nat → V) (c : Coords) : V :=
  F (getLoclxAndRankOfCoords g c).1 (getLoclxAndRankOfCoords g c).2

/-- Specification: the same for an even/odd field -/
def globEo {V : Type} (g : Geo) (F : Nat → Nat → Nat → V) (c : Coords) : V :=
  F (getLoclxAndRankOfCoords g c).1 ((c 0 + c 1 + c 2 + c 3) % 2)
    ((loceoOfLoclx g (coordOfLx (getLoclxAndRankOfCoords g c).1 g.R) (getLoclxAndRankOfCoords g c).2).getD 0)

section
variable {g : Geo} (ok : g.Ok)
include ok

theorem glbCoord_lt (r : Coords) {i : Nat} (hi : i < allVol g) {c : Coords} (h : glbCoordOfLoclx g r i = some c) : ∀ mu, c mu < g.L mu := by
  obtain ⟨x, hx, hn, he⟩ := C04_index_surjective g ok i hi
  rw [idx_spec ok hx hn] at he
  have : idx g x = i := by injection he with he; omega
  rw [← this, glbCoord_table ok r hx hn] at h
  cases h
  intro mu
  unfold torus
  have := L_pos ok mu
  have h2 := Int.emod_lt_of_pos (x mu + r mu * g.loc mu) (show (0 : Int) < g.L mu by exact_mod_cast this)
  have h3 := Int.emod_nonneg (x mu + r mu * g.loc mu) (show (g.L mu : Int) ≠ 0 by omega)
  omega

theorem glbCoord_some (r : Coords) {i : Nat} (hi : i < allVol g) : ∃ c, glbCoordOfLoclx g r i = some c := by
  obtain ⟨x, hx, hn, he⟩ := C04_index_surjective g ok i hi
  rw [idx_spec ok hx hn] at he
  have : idx g x = i := by injection he with he; omega
  exact ⟨_, this ▸ glbCoord_table ok r hx hn⟩

/-- the owner of a local site is the rank itself -/
theorem owner_local {r : Coords} (hr : IsRank g r) {i : Nat} (hi : i < g.locVol) {c : Coords} (h : glbCoordOfLoclx g r i = some c) :
    getLoclxAndRankOfCoords g c = (lxOfCoord r g.R, i) := by
  have hrk : lxOfCoord r g.R < g.nranks := lxOfCoord_lt hr
  obtain ⟨c', ⟨h1, h2⟩, -⟩ := C02_bijective g ok (lxOfCoord r g.R) i hrk hi
  have h3 := (C02_rank_and_loclx g ok _ h1).2.2.2.1
  rw [h2] at h3
  simp only at h3
  rw [coordOfLx_lxOfCoord hr, h] at h3
  cases h3
  exact h2

/-- C05 and C06 together: whatever the rank reads at a site it knows, is the value of the global field there -/
theorem mem_eq {V : Type} (jv : V) (F : Nat → Nat → V) {r : Coords} (hr : IsRank g r) {i : Nat} (hi : i < allVol g) {c : Coords}
    (h : glbCoordOfLoclx g r i = some c) : mem g jv F r i = glob g F c := by
  unfold mem
  by_cases h1 : i < g.locVol
  · rw [if_pos h1]
    unfold glob
    rw [owner_local ok hr h1 h]
  rw [if_neg h1]
  by_cases h2 : i < g.locVol + g.bordVol
  · rw [if_pos h2]
    obtain ⟨buf, hb, hs⟩ := C05_halo_update g ok F r hr
    obtain ⟨c', hc, he⟩ := hs (i - g.locVol) (by omega)
    rw [show g.locVol + (i - g.locVol) = i by omega, h] at hc
    cases hc
    rw [hb, Option.bind_some, he]; rfl
  · rw [if_neg h2]
    obtain ⟨buf, hb, hs⟩ := C06_edges_update g ok F r hr
    obtain ⟨c', hc, he⟩ := hs (i - g.locVol - g.bordVol) (by unfold allVol at hi; omega)
    rw [show g.locVol + g.bordVol + (i - g.locVol - g.bordVol) = i by omega, h] at hc
    cases hc
    rw [hb, Option.bind_some, he]; rfl

/-- one step from a local site -/
theorem step1 (r : Coords) (ji : Nat) {i : Nat} (hi : i < g.locVol) {c : Coords} (h : glbCoordOfLoclx g r i = some c) (mu : Dir) {d : Int}
    (hd : d = 1 ∨ d = -1) :
    idxOf ji (loclxNeigh g r d i mu) < g.locVol + g.bordVol ∧
      glbCoordOfLoclx g r (idxOf ji (loclxNeigh g r d i mu)) = some (tshift g c mu d) := by
  obtain ⟨j, c', h1, h2, -, h4, h5⟩ := C03_neighbours_of_local g ok r i hi mu d hd
  rw [h] at h4; cases h4
  rw [h1]
  exact ⟨h2, h5⟩

/-- two steps from a local site, along different directions -/
theorem step2 (r : Coords) (ji : Nat) {i : Nat} (hi : i < g.locVol) {c : Coords} (h : glbCoordOfLoclx g r i = some c) {mu nu : Dir}
    (hne : mu ≠ nu) {d e : Int} (hd : d = 1 ∨ d = -1) (he : e = 1 ∨ e = -1) :
    idxOf ji (loclxNeigh g r e (idxOf ji (loclxNeigh g r d i mu)) nu) < allVol g ∧
      glbCoordOfLoclx g r (idxOf ji (loclxNeigh g r e (idxOf ji (loclxNeigh g r d i mu)) nu)) = some (tshift g (tshift g c mu d) nu e) := by
  obtain ⟨x, hx, rfl⟩ := idx_surj_loc ok hi
  have h0 := nOut_inside hx
  rw [glbCoord_table ok r (ext_inside hx) (by omega)] at h
  cases h
  obtain ⟨y, hy, hmod, hag, hpar, hnp⟩ := step_inside ok (ext_inside hx) (hx mu) hd
  have hn : nOut g y ≤ 1 := by have := nOut_le_of_agree (hx mu) hag; omega
  have e1 : loclxNeigh g r d (idx g x) mu = some ((idx g y : Nat) : Int) := by
    rw [neigh_eq ok r (ext_inside hx) (by omega), ← fullLx_congr ok hmod, idx_spec ok hy (by omega)]
  have hiy : Inside g y nu := by
    have := hx nu; unfold Inside at this ⊢; rw [hag nu hne.symm]; exact this
  obtain ⟨z, hz, hmod', hag', hpar', hnp'⟩ := step_inside ok hy hiy he
  have hn' : nOut g z ≤ 2 := by have := nOut_le_of_agree hiy hag'; omega
  have e2 : loclxNeigh g r e (idx g y) nu = some ((idx g z : Nat) : Int) := by
    rw [neigh_eq ok r hy (by omega), ← fullLx_congr ok hmod', idx_spec ok hz (by omega)]
  rw [e1]
  show idxOf ji (loclxNeigh g r e (idx g y) nu) < allVol g ∧ glbCoordOfLoclx g r (idxOf ji (loclxNeigh g r e (idx g y) nu)) = _
  rw [e2]
  show idx g z < allVol g ∧ glbCoordOfLoclx g r (idx g z) = _
  refine ⟨?_, ?_⟩
  · unfold allVol
    rcases ext_cases hz with ⟨h, _⟩ | ⟨nu, h, _⟩ | ⟨ee, h, _⟩ | ⟨_, _, _, _, _, _, _, _, _, h⟩
    · have := idx_loc_lt ok h; omega
    · have := (idx_bord_range ok h).2; omega
    · have := (idx_edge_range ok h).2; omega
    · omega
  · rw [glbCoord_table ok r hz hn', torus_congr ok r hmod', torus_shift ok, torus_congr ok r hmod, torus_shift ok]

/-- back to the starting site -/
theorem step_back (r : Coords) (ji : Nat) {i : Nat} (hi : i < g.locVol) (mu : Dir) {d : Int} (hd : d = 1 ∨ d = -1) :
    idxOf ji (loclxNeigh g r (-d) (idxOf ji (loclxNeigh g r d i mu)) mu) = i := by
  obtain ⟨j, c', h1, h2, -, h4, h5⟩ := C03_neighbours_of_local g ok r i hi mu d hd
  rw [h1]
  show idxOf ji (loclxNeigh g r (-d) j mu) = i
  rw [C03_back_and_forth g ok r i hi mu d hd j h1]
  rfl

theorem mem_up {V : Type} (jv : V) (ji : Nat) (F : Nat → Nat → V) {r : Coords} (hr : IsRank g r) {i : Nat} (hi : i < g.locVol) {c : Coords}
    (h : glbCoordOfLoclx g r i = some c) (mu : Dir) : mem g jv F r (upT g r ji i mu) = glob g F (tshift g c mu 1) := by
  obtain ⟨h1, h2⟩ := step1 ok r ji hi h mu (d := 1) (.inl rfl)
  exact mem_eq ok jv F hr (by unfold allVol upT; omega) h2

theorem mem_dw {V : Type} (jv : V) (ji : Nat) (F : Nat → Nat → V) {r : Coords} (hr : IsRank g r) {i : Nat} (hi : i < g.locVol) {c : Coords}
    (h : glbCoordOfLoclx g r i = some c) (mu : Dir) : mem g jv F r (dwT g r ji i mu) = glob g F (tshift g c mu (-1)) := by
  obtain ⟨h1, h2⟩ := step1 ok r ji hi h mu (d := -1) (.inr rfl)
  exact mem_eq ok jv F hr (by unfold allVol dwT; omega) h2

theorem mem_here {V : Type} (jv : V) (F : Nat → Nat → V) {r : Coords} (hr : IsRank g r) {i : Nat} (hi : i < g.locVol) {c : Coords}
    (h : glbCoordOfLoclx g r i = some c) : mem g jv F r i = glob g F c :=
  mem_eq ok jv F hr (by unfold allVol; omega) h

/-- two steps, any combination along different directions -/
theorem mem_step2 {V : Type} (jv : V) (ji : Nat) (F : Nat → Nat → V) {r : Coords} (hr : IsRank g r) {i : Nat} (hi : i < g.locVol) {c : Coords}
    (h : glbCoordOfLoclx g r i = some c) {mu nu : Dir} (hne : mu ≠ nu) {d e : Int} (hd : d = 1 ∨ d = -1) (he : e = 1 ∨ e = -1) :
    mem g jv F r (idxOf ji (loclxNeigh g r e (idxOf ji (loclxNeigh g r d i mu)) nu)) = glob g F (tshift g (tshift g c mu d) nu e) := by
  obtain ⟨h1, h2⟩ := step2 ok r ji hi h hne hd he
  exact mem_eq ok jv F hr h1 h2

variable (eo : EoOk g)
include eo

/-- what a rank reads of an even/odd field at a site it knows, labelled by parity and half index -/
theorem eoMem_eq {V : Type} (jv : V) (F : Nat → Nat → Nat → V) {r : Coords} (hr : IsRank g r) {p e : Nat} (hp : p < 2)
    (he : e < allVol g / 2) {l : Nat} (hl : loclxOfLoceo g r p e = some l) {c : Coords} (h : glbCoordOfLoclx g r l = some c) :
    eoMem g jv F r p e = globEo g F c := by
  have hev := even_locVol ok eo
  have hb2 : g.bordVol = 2 * g.bordVolh := rfl
  have hpar : (c 0 + c 1 + c 2 + c 3) % 2 = p := by
    obtain ⟨l', h1, h2, h3, h4, -⟩ := C07_lx_of_eo g ok eo r p e hp he
    rw [hl] at h1; cases h1
    obtain ⟨c', p', e', k1, k2, k3, -⟩ := C07_eo_of_lx g ok eo r l h2
    rw [h] at k1; cases k1
    rw [h3] at k3; cases k3
    exact k2.symm
  have fin : ∀ rk ll e', getLoclxAndRankOfCoords g c = (rk, ll) → loceoOfLoclx g (coordOfLx rk g.R) ll = some e' → globEo g F c = F rk p e' := by
    intro rk ll e' h1 h2
    unfold globEo
    rw [h1, hpar]
    simp only
    rw [h2]; rfl
  unfold eoMem
  by_cases h1 : e < g.locVol / 2
  · rw [if_pos h1]
    obtain ⟨l', k1, k2, k3, k4, k5⟩ := C07_lx_of_eo g ok eo r p e hp he
    rw [hl] at k1; cases k1
    refine (fin _ l e (owner_local ok hr (k5 h1) h) ?_).symm
    rw [coordOfLx_lxOfCoord hr]; exact k4
  rw [if_neg h1]
  by_cases h2 : e < (g.locVol + g.bordVol) / 2
  · rw [if_pos h2]
    obtain ⟨buf, hb, hs⟩ := C05_eo_halo_update g ok eo p hp (fun rk e => F rk p e) r hr
    obtain ⟨l', c', rk, ll, e', k1, k2, k3, k4, k5, k6⟩ := hs (e - g.locVol / 2) (by omega)
    rw [show g.locVol / 2 + (e - g.locVol / 2) = e by omega, hl] at k1
    cases k1
    rw [h] at k2; cases k2
    rw [hb, Option.bind_some, k6]
    exact (fin rk ll e' k3 k5).symm
  · rw [if_neg h2]
    obtain ⟨buf, hb, hs⟩ := C06_eo_edges_update g ok eo p hp (fun rk e => F rk p e) r hr
    have h7 : g.edgeVol = 4 * edgeVolq g := rfl
    obtain ⟨l', c', rk, ll, e', k1, k2, k3, k4, k5, k6⟩ := hs (e - (g.locVol + g.bordVol) / 2) (by unfold allVol at he; omega)
    rw [show (g.locVol + g.bordVol) / 2 + (e - (g.locVol + g.bordVol) / 2) = e by omega, hl] at k1
    cases k1
    rw [h] at k2; cases k2
    rw [hb, Option.bind_some, k6]
    exact (fin rk ll e' k3 k5).symm

/-- the site labelled by a parity and a local half index, and its coordinates -/
theorem eoSite (r : Coords) {p e : Nat} (hp : p < 2) (he : e < g.locVol / 2) :
    ∃ l c, loclxOfLoceo g r p e = some l ∧ l < g.locVol ∧ glbCoordOfLoclx g r l = some c ∧ (c 0 + c 1 + c 2 + c 3) % 2 = p := by
  obtain ⟨l, k1, k2, k3, k4, k5⟩ := C07_lx_of_eo g ok eo r p e hp (by omega)
  obtain ⟨c, p', e', q1, q2, q3, -⟩ := C07_eo_of_lx g ok eo r l k2
  rw [k3] at q3; cases q3
  exact ⟨l, c, k1, k5 he, q1, q2.symm⟩

theorem eoMem_neigh {V : Type} (jv : V) (ji : Nat) (F : Nat → Nat → Nat → V) {r : Coords} (hr : IsRank g r) {p e : Nat} (hp : p < 2)
    (he : e < g.locVol / 2) {l : Nat} (hl : loclxOfLoceo g r p e = some l) {c : Coords} (h : glbCoordOfLoclx g r l = some c) (mu : Dir)
    {d : Int} (hd : d = 1 ∨ d = -1) :
    eoMem g jv F r (1 - p) ((loceoNeigh g r d p mu e).getD ji) = globEo g F (tshift g c mu d) := by
  obtain ⟨e', l', l'', c', h1, h2, h3, h4, h5, h6⟩ := C07_neighbours g ok eo r p e hp he mu d hd
  rw [hl] at h2; cases h2
  rw [h] at h5; cases h5
  rw [h1]
  have hl2 : l < g.locVol := by
    obtain ⟨l2, k1, k2, k3, k4, k5⟩ := C07_lx_of_eo g ok eo r p e hp (by omega)
    rw [hl] at k1; cases k1; exact k5 he
  have hlt : l'' < g.locVol + g.bordVol := by
    obtain ⟨j, c', q1, q2, -⟩ := C03_neighbours_of_local g ok r l hl2 mu d hd
    rw [q1] at h4
    have : j = l'' := by injection h4 with h4; omega
    omega
  have hev := even_locVol ok eo
  have hb2 : g.bordVol = 2 * g.bordVolh := rfl
  have hp' : e' < allVol g / 2 := by
    obtain ⟨c2, p2, e2, q1, q2, q3, q4, q5, -, q7, q8⟩ := C07_eo_of_lx g ok eo r l'' (by omega)
    have hpc : p2 = 1 - p := by
      rw [h6] at q1; cases q1
      obtain ⟨l2, k1, k2, k3, k4, k5⟩ := C07_lx_of_eo g ok eo r p e hp (by omega)
      rw [hl] at k1; cases k1
      obtain ⟨c3, p3, e3, s1, s2, s3, -⟩ := C07_eo_of_lx g ok eo r l k2
      rw [h] at s1; cases s1
      rw [k3] at s3; cases s3
      have := parity_tshift ok eo c mu hd
      unfold coordParity dirs at this
      simp at this
      omega
    subst hpc
    have := loceoNeigh_eq ok eo r (p := p) (e := e) (l := l) (d := d) (mu := mu) (j := l'') (by unfold allVol; omega)
      (by obtain ⟨l2, k1, k2, k3, k4, k5⟩ := C07_lx_of_eo g ok eo r p e hp (by omega); rw [hl] at k1; cases k1; exact k3)
      (by obtain ⟨l2, k1, k2, k3, k4, k5⟩ := C07_lx_of_eo g ok eo r p e hp (by omega); rw [hl] at k1; cases k1
          rw [loceo_eq ok eo r k2] at k4; exact Option.some.inj k4) h4 (by unfold allVol; omega)
    rw [h1] at this
    have h7 : g.edgeVol = 4 * edgeVolq g := rfl
    injection this with this
    unfold allVol; omega
  exact eoMem_eq ok eo jv F hr (by omega) hp' h3 h6

end

end Nissa.Sten
