import Verif.Hmc.PropsGaugeAction

set_option linter.all false

namespace Nissa.GForce
open Nissa.Lx Nissa.Sten Nissa.Gauge Nissa.Paths

section
variable {g : Geo} (ok : g.Ok)
include ok

theorem rank_site {rk i : Nat} (hrk : rk < g.nranks) (hi : i < g.locVol) {x : Coords} (hx : glbCoordOfLoclx g (coordOfLx rk g.R) i = some x) :
    getLoclxAndRankOfCoords g x = (rk, i) := by
  obtain ⟨c, ⟨h1, h2⟩, -⟩ := C02_bijective g ok rk i hrk hi
  have := (C02_rank_and_loclx g ok c h1).2.2.2.1
  rw [h2] at this
  rw [hx] at this
  cases this
  exact h2

/-- the sum on ranks, parities and sites of a parity is the sum over the lattice -/
theorem sum_eo (eo : EoOk g) {M : Type} [AddCommMonoid M] (f : Nat → Nat → Nat → M) :
    ∑ rk ∈ Finset.range g.nranks, ∑ p ∈ Finset.range 2, ∑ e ∈ Finset.range (g.locVol / 2), f rk p e = ∑ x ∈ box g.L, globEo g f x := by
  have hev := even_locVol ok eo
  rw [← Finset.sum_coe_sort (box g.L)]
  have key := fun x : ↥(box g.L) => eoSiteOf ok eo x.2
  choose rk e l h1 h2 hr hl hx hF hG using key
  rw [Finset.sum_congr rfl fun (x : ↥(box g.L)) _ => hF x f]
  have e1 : ∑ rk ∈ Finset.range g.nranks, ∑ p ∈ Finset.range 2, ∑ e ∈ Finset.range (g.locVol / 2), f rk p e =
      ∑ q ∈ Finset.range g.nranks ×ˢ (Finset.range 2 ×ˢ Finset.range (g.locVol / 2)), f q.1 q.2.1 q.2.2 := by
    rw [Finset.sum_product]
    exact Finset.sum_congr rfl fun rk _ => by rw [Finset.sum_product]
  rw [e1]
  symm
  refine Finset.sum_bij (fun x _ => (rk x, par x.1, e x)) ?_ ?_ ?_ ?_
  · intro x _
    simp only [Finset.mem_product, Finset.mem_range]
    exact ⟨h1 x, par_lt ok eo x.1, h2 x⟩
  · intro x _ y _ hxy
    simp only [Prod.mk.injEq] at hxy
    obtain ⟨a1, a2, a3⟩ := hxy
    have b1 := hl x
    have b2 := hl y
    rw [← a1, ← a2, ← a3] at b2
    rw [b1] at b2
    have b3 := Option.some.inj b2
    have c1 := hx x
    have c2 := hx y
    rw [← a1, ← b3, c1] at c2
    exact Subtype.ext (Option.some.inj c2)
  · rintro ⟨rk', p', e'⟩ hq
    simp only [Finset.mem_product, Finset.mem_range] at hq
    obtain ⟨q1, q2, q3⟩ := hq
    obtain ⟨l', k1, k2, k3, k4, k5⟩ := C07_lx_of_eo g ok eo (coordOfLx rk' g.R) p' e' q2 (by omega)
    obtain ⟨c, p, e2, m1, m2, m3, m4, m5, m6, -⟩ := C07_eo_of_lx g ok eo (coordOfLx rk' g.R) l' (by omega)
    rw [k3] at m3; cases m3
    rw [k4] at m4; cases m4
    have hl' := k5 q3
    have hb := coord_box ok q1 hl' m1
    refine ⟨⟨c, hb⟩, Finset.mem_univ _, ?_⟩
    have r1 := rank_site ok q1 hl' m1
    have hll : l ⟨c, hb⟩ < g.locVol := by
      obtain ⟨l2, n1, n2, n3, n4, n5⟩ := C07_lx_of_eo g ok eo (coordOfLx (rk ⟨c, hb⟩) g.R) (par c) (e ⟨c, hb⟩) (par_lt ok eo c) (by have := h2 ⟨c, hb⟩; omega)
      have := hl ⟨c, hb⟩
      rw [n1] at this
      cases this
      exact n5 (h2 ⟨c, hb⟩)
    have r2 := rank_site ok (h1 ⟨c, hb⟩) hll (hx ⟨c, hb⟩)
    rw [r1] at r2
    simp only [Prod.mk.injEq] at r2
    obtain ⟨r3, r4⟩ := r2
    obtain ⟨l2, n1, n2, n3, n4, n5⟩ := C07_lx_of_eo g ok eo (coordOfLx (rk ⟨c, hb⟩) g.R) (par c) (e ⟨c, hb⟩) (par_lt ok eo c) (by have := h2 ⟨c, hb⟩; omega)
    have n6 := hl ⟨c, hb⟩
    rw [n1] at n6
    cases n6
    rw [← r3, ← r4] at n4
    rw [k4] at n4
    simp only [Prod.mk.injEq]
    exact ⟨r3.symm, m2.symm, (Option.some.inj n4).symm⟩
  · intro x _; rfl

/-- the reduction of the even and the odd parts -/
theorem reduce_eo (eo : EoOk g) {M : Type} [AddCommMonoid M] (sched : Nat → Nat → Nat → List Nat) (hl : ∀ p rk, Reduce.Legal (sched p rk)) (f : Nat → Nat → Nat → M) :
    (∑ rk ∈ Finset.range g.nranks, Reduce.reduceNoPreserve (· + ·) (sched 0 rk) (g.locVol / 2) (f rk 0)) +
    (∑ rk ∈ Finset.range g.nranks, Reduce.reduceNoPreserve (· + ·) (sched 1 rk) (g.locVol / 2) (f rk 1)) = ∑ x ∈ box g.L, globEo g f x := by
  have hv : 0 < g.locVol / 2 := by
    have h0 : 0 < g.locVol := by
      rw [locVol_eq ok]
      have := loc_pos ok
      simp only [volOfLx, dirs, List.foldl]
      have a := this 0; have b := this 1; have c := this 2; have d := this 3
      positivity
    have := even_locVol ok eo
    omega
  rw [Reduce.C11_field_reduce g.nranks (sched 0) (hl 0) _ hv, Reduce.C11_field_reduce g.nranks (sched 1) (hl 1) _ hv, ← sum_eo ok eo, ← Finset.sum_add_distrib]
  refine Finset.sum_congr rfl fun rk _ => ?_
  rw [Finset.sum_range_succ, Finset.sum_range_one]

end
end Nissa.GForce
