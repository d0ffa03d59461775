import Verif.Stencil.Paths

/-! # Half fields, shifts of sums on the lattice

Common ground of the Dirac operators: fields living on the sites of one parity, and the invariance of sums under translations. -/

set_option linter.all false

namespace Nissa.Sten
open Nissa.Lx Nissa.Gauge

/-- parity of a site -/
def par (c : Coords) : Nat := (c 0 + c 1 + c 2 + c 3) % 2

/-- the sites of given parity of the global lattice -/
def boxP (g : Geo) (p : Nat) : Finset Coords := (box g.L).filter (fun c => par c = p)

theorem mem_boxP {g : Geo} {p : Nat} {c : Coords} : c ∈ boxP g p ↔ c ∈ box g.L ∧ par c = p := by
  simp [boxP]

/-- Element `e` of an `EvnField` (`p=0`) or `OddField` (`p=1`) on the rank `r` after `updateHalo()`.
`/repo/src/base/field.hpp:1148-1230` -/
def hMem {V : Type} (g : Geo) (jv : V) (F : Nat → Nat → V) (r : Coords) (p e : Nat) : V :=
  eoMem g jv (fun rk _ e => F rk e) r p e

/-- Specification: value at a site (of the parity of the field) of an `EvnField` or `OddField` -/
def globH {V : Type} (g : Geo) (F : Nat → Nat → V) (c : Coords) : V := globEo g (fun rk _ e => F rk e) c

section
variable {g : Geo} (ok : g.Ok)
include ok

/-- the local site of the owner of a global site -/
theorem lxSite {x : Coords} (hx : x ∈ box g.L) : ∃ rk i, rk < g.nranks ∧ i < g.locVol ∧ IsRank g (coordOfLx rk g.R) ∧
    glbCoordOfLoclx g (coordOfLx rk g.R) i = some x ∧ ∀ {V : Type} (F : Nat → Nat → V), glob g F x = F rk i := by
  obtain ⟨h1, h2, -, h4, -⟩ := C02_rank_and_loclx g ok x (mem_box.1 hx)
  exact ⟨_, _, h1, h2, isRank_coord ok h1, h4, fun F => rfl⟩

/-- translation of a sum over the lattice -/
theorem sum_shift {M : Type} [AddCommMonoid M] (mu : Dir) {d : Int} (hd : d = 1 ∨ d = -1) (f : Coords → Coords → M) :
    ∑ c ∈ box g.L, f c (tshift g c mu d) = ∑ c ∈ box g.L, f (tshift g c mu (-d)) c := by
  have hd' : -d = 1 ∨ -d = -1 := by omega
  refine Finset.sum_bij' (i := fun c _ => tshift g c mu d) (j := fun c _ => tshift g c mu (-d)) ?_ ?_ ?_ ?_ ?_
  · exact fun c hc => tshift_mem_box ok hc mu d
  · exact fun c hc => tshift_mem_box ok hc mu (-d)
  · exact fun c hc => Nissa.Paths.tshift_back ok hc mu d hd
  · intro c hc
    have := Nissa.Paths.tshift_back ok hc mu (-d) hd'
    rwa [neg_neg] at this
  · intro c hc
    rw [Nissa.Paths.tshift_back ok hc mu d hd]

variable (eo : EoOk g)
include eo

theorem par_tshift (c : Coords) (mu : Dir) {d : Int} (hd : d = 1 ∨ d = -1) : par (tshift g c mu d) = 1 - par c := by
  have := parity_tshift ok eo c mu hd
  unfold coordParity dirs at this
  simp only [List.foldl_cons, List.foldl_nil, Nat.zero_add] at this
  exact this

theorem tshift_mem_boxP {c : Coords} {p : Nat} (hc : c ∈ boxP g p) (mu : Dir) {d : Int} (hd : d = 1 ∨ d = -1) :
    tshift g c mu d ∈ boxP g (1 - p) := by
  rw [mem_boxP] at hc ⊢
  exact ⟨tshift_mem_box ok hc.1 mu d, by rw [par_tshift ok eo c mu hd, hc.2]⟩

theorem sum_shift_parity {M : Type} [AddCommMonoid M] {p : Nat} (hp : p < 2) (mu : Dir) {d : Int} (hd : d = 1 ∨ d = -1)
    (f : Coords → Coords → M) :
    ∑ c ∈ boxP g p, f c (tshift g c mu d) = ∑ c ∈ boxP g (1 - p), f (tshift g c mu (-d)) c := by
  have hd' : -d = 1 ∨ -d = -1 := by omega
  refine Finset.sum_bij' (i := fun c _ => tshift g c mu d) (j := fun c _ => tshift g c mu (-d)) ?_ ?_ ?_ ?_ ?_
  · exact fun c hc => tshift_mem_boxP ok eo hc mu hd
  · intro c hc
    have := tshift_mem_boxP ok eo hc mu hd'
    rwa [show 1 - (1 - p) = p by omega] at this
  · exact fun c hc => Nissa.Paths.tshift_back ok (mem_boxP.1 hc).1 mu d hd
  · intro c hc
    have := Nissa.Paths.tshift_back ok (mem_boxP.1 hc).1 mu (-d) hd'
    rwa [neg_neg] at this
  · intro c hc
    rw [Nissa.Paths.tshift_back ok (mem_boxP.1 hc).1 mu d hd]

omit ok eo in
theorem sum_parities {M : Type} [AddCommMonoid M] (f : Coords → M) : ∑ c ∈ box g.L, f c = ∑ c ∈ boxP g 0, f c + ∑ c ∈ boxP g 1, f c := by
  classical
  rw [boxP, boxP, ← Finset.sum_filter_add_sum_filter_not (box g.L) (fun c => par c = 0) f]
  congr 1
  refine Finset.sum_congr (Finset.filter_congr fun c _ => ?_) fun _ _ => rfl
  unfold par; omega

/-- the label, on the owner, of a global site -/
theorem eoSiteOf {x : Coords} (hx : x ∈ box g.L) : ∃ rk e l, rk < g.nranks ∧ e < g.locVol / 2 ∧ IsRank g (coordOfLx rk g.R) ∧
    loclxOfLoceo g (coordOfLx rk g.R) (par x) e = some l ∧ glbCoordOfLoclx g (coordOfLx rk g.R) l = some x ∧
    (∀ {V : Type} (F : Nat → Nat → Nat → V), globEo g F x = F rk (par x) e) ∧ (∀ {V : Type} (F : Nat → Nat → V), globH g F x = F rk e) := by
  obtain ⟨h1, h2, -, h4, -⟩ := C02_rank_and_loclx g ok x (mem_box.1 hx)
  obtain ⟨c, p, e, k1, k2, k3, k4, k5, k6, -⟩ := C07_eo_of_lx g ok eo (coordOfLx (getLoclxAndRankOfCoords g x).1 g.R)
    (getLoclxAndRankOfCoords g x).2 (by omega)
  rw [h4] at k1; cases k1
  have hF : ∀ {V : Type} (F : Nat → Nat → Nat → V), globEo g F x = F (getLoclxAndRankOfCoords g x).1 (par x) e := by
    intro V F
    unfold globEo
    rw [k4]; rfl
  refine ⟨_, e, _, h1, k6.1 h2, isRank_coord ok h1, by rw [k2] at k5; exact k5, h4, hF, fun F => hF _⟩

theorem par_lt (x : Coords) : par x < 2 := by unfold par; omega

theorem eoMem_here {V : Type} (jv : V) (F : Nat → Nat → Nat → V) {r : Coords} (hr : IsRank g r) {p e : Nat} (hp : p < 2)
    (he : e < g.locVol / 2) {l : Nat} (hl : loclxOfLoceo g r p e = some l) {c : Coords} (h : glbCoordOfLoclx g r l = some c) :
    eoMem g jv F r p e = globEo g F c :=
  eoMem_eq ok eo jv F hr hp (by unfold allVol; omega) hl h

theorem eoMem_up {V : Type} (jv : V) (ji : Nat) (F : Nat → Nat → Nat → V) {r : Coords} (hr : IsRank g r) {p e : Nat} (hp : p < 2)
    (he : e < g.locVol / 2) {l : Nat} (hl : loclxOfLoceo g r p e = some l) {c : Coords} (h : glbCoordOfLoclx g r l = some c) (mu : Dir) :
    eoMem g jv F r (1 - p) (eupT g r ji p e mu) = globEo g F (tshift g c mu 1) :=
  eoMem_neigh ok eo jv ji F hr hp he hl h mu (.inl rfl)

theorem eoMem_dw {V : Type} (jv : V) (ji : Nat) (F : Nat → Nat → Nat → V) {r : Coords} (hr : IsRank g r) {p e : Nat} (hp : p < 2)
    (he : e < g.locVol / 2) {l : Nat} (hl : loclxOfLoceo g r p e = some l) {c : Coords} (h : glbCoordOfLoclx g r l = some c) (mu : Dir) :
    eoMem g jv F r (1 - p) (edwT g r ji p e mu) = globEo g F (tshift g c mu (-1)) :=
  eoMem_neigh ok eo jv ji F hr hp he hl h mu (.inr rfl)

end

end Nissa.Sten
