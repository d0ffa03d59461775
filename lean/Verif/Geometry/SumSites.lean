/- The sum over ranks and local sites is the sum over the global sites. -/
import Verif.Geometry.PropsLx
import Mathlib.Algebra.BigOperators.Group.Finset.Sigma
import Mathlib.Data.Fintype.Pi
import Mathlib.Data.Fintype.BigOperators
set_option linter.all false

namespace Nissa.Lx

/-- the sites of a lattice of given sides -/
def box (L : Coords) : Finset Coords := Fintype.piFinset (fun mu => Finset.range (L mu))

theorem mem_box {L c : Coords} : c ∈ box L ↔ ∀ mu, c mu < L mu := by
  simp [box, Fintype.mem_piFinset]

/-- the coordinates table of all the ranks of a grid: `X rk i` are the coordinates `glbCoordOfLoclx[i]` on the rank `rk` -/
def CoordTable (g : Geo) (X : Nat → Nat → Coords) : Prop :=
  ∀ rk, rk < g.nranks → ∀ i, i < g.locVol → glbCoordOfLoclx g (coordOfLx rk g.R) i = some (X rk i)

theorem coordTable_exists (g : Geo) (ok : g.Ok) : ∃ X, CoordTable g X := by
  classical
  refine ⟨fun rk i => if h : rk < g.nranks ∧ i < g.locVol then (C02_bijective g ok rk i h.1 h.2).choose else fun _ => 0, fun rk hr i hi => ?_⟩
  beta_reduce
  rw [dif_pos ⟨hr, hi⟩]
  have := (C02_bijective g ok rk i hr hi).choose_spec.1
  have h2 := (C02_rank_and_loclx g ok _ this.1).2.2.2.1
  rw [this.2] at h2
  exact h2

theorem coordTable_of (g : Geo) (ok : g.Ok) (X : Nat → Nat → Coords) (hX : CoordTable g X) (rk i : Nat) (hr : rk < g.nranks) (hi : i < g.locVol) :
    (∀ mu, X rk i mu < g.L mu) ∧ getLoclxAndRankOfCoords g (X rk i) = (rk, i) := by
  obtain ⟨c, ⟨h1, h2⟩, -⟩ := C02_bijective g ok rk i hr hi
  have h3 := (C02_rank_and_loclx g ok _ h1).2.2.2.1
  rw [h2] at h3
  have : c = X rk i := Option.some.inj (h3.symm.trans (hX rk hr i hi))
  exact this ▸ ⟨h1, h2⟩

theorem coordTable_at (g : Geo) (ok : g.Ok) (X : Nat → Nat → Coords) (hX : CoordTable g X) (c : Coords) (hc : ∀ mu, c mu < g.L mu) :
    X (getLoclxAndRankOfCoords g c).1 (getLoclxAndRankOfCoords g c).2 = c := by
  obtain ⟨h1, h2, -, h3, -⟩ := C02_rank_and_loclx g ok c hc
  exact (Option.some.inj (h3.symm.trans (hX _ h1 _ h2))).symm

theorem sum_sites {M : Type} [AddCommMonoid M] (g : Geo) (ok : g.Ok) (X : Nat → Nat → Coords) (hX : CoordTable g X) (F : Coords → M) :
    ∑ rk ∈ Finset.range g.nranks, ∑ i ∈ Finset.range g.locVol, F (X rk i) = ∑ c ∈ box g.L, F c := by
  rw [← Finset.sum_product' (f := fun rk i => F (X rk i))]
  refine Finset.sum_bij' (i := fun p _ => X p.1 p.2) (j := fun c _ => getLoclxAndRankOfCoords g c) ?_ ?_ ?_ ?_ ?_
  · intro p hp
    rw [Finset.mem_product, Finset.mem_range, Finset.mem_range] at hp
    exact mem_box.2 (coordTable_of g ok X hX p.1 p.2 hp.1 hp.2).1
  · intro c hc
    obtain ⟨h1, h2, -⟩ := C02_rank_and_loclx g ok c (mem_box.1 hc)
    exact Finset.mem_product.2 ⟨Finset.mem_range.2 h1, Finset.mem_range.2 h2⟩
  · intro p hp
    rw [Finset.mem_product, Finset.mem_range, Finset.mem_range] at hp
    exact (coordTable_of g ok X hX p.1 p.2 hp.1 hp.2).2
  · intro c hc
    exact coordTable_at g ok X hX c (mem_box.1 hc)
  · intro p _; rfl

end Nissa.Lx
