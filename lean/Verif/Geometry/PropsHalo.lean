/- C05, C06: the halo and edge exchanges deliver the owner's data. -/
import Verif.Geometry.HaloExch
import Verif.Geometry.PropsLx

set_option linter.all false
namespace Nissa.Lx
open Geo
variable {g : Geo}

/-- the same border site, on the other side -/
def flip (g : Geo) (x : ICoords) (mu : Dir) : ICoords := Function.update x mu (if x mu = -1 then (g.loc mu : Int) else -1)

/-- orientation of the border as an index -/
def oriF (g : Geo) (x : ICoords) (mu : Dir) : Fin 2 := if x mu = g.loc mu then 1 else 0

theorem oriF_val (x : ICoords) (mu : Dir) : (oriF g x mu).val = oriOf g x mu := by
  unfold oriF oriOf; split <;> rfl

section
variable (ok : g.Ok)
include ok

theorem torus_eq_of {r r' : Coords} {x x' : ICoords}
    (h : ∀ mu, ∃ s k : Int, (r' mu : Int) = r mu + s + k * g.R mu ∧ x' mu = x mu - s * g.loc mu) : torus g r' x' = torus g r x := by
  funext mu
  obtain ⟨s, k, h1, h2⟩ := h mu
  have : (torus g r' x' mu : Int) = torus g r x mu := by
    rw [torus_cast ok, torus_cast ok, h1, h2]
    have e : (x mu - s * g.loc mu + (r mu + s + k * g.R mu) * g.loc mu) = (x mu + r mu * g.loc mu) + k * g.L mu := by
      have hL : (g.L mu : Int) = g.R mu * g.loc mu := by rw [L_eq ok]; push_cast; rfl
      rw [hL]; ring
    rw [e]
    exact Int.add_mul_emod_self_right _ _ _
  omega

theorem flip_oneOut {x : ICoords} {mu : Dir} (h : OneOut g x mu) : OneOut g (flip g x mu) mu := by
  refine ⟨⟨h.1.1, ?_⟩, fun nu hn => ?_⟩
  · unfold flip; rw [Function.update_self]; split <;> simp
  · have := h.2 nu hn; unfold Inside flip at *; rw [Function.update_of_ne hn]; exact this

theorem oriF_flip {x : ICoords} {mu : Dir} (h : OneOut g x mu) : oriF g (flip g x mu) mu = 1 - oriF g x mu := by
  have := loc_pos ok mu
  unfold oriF flip
  rw [Function.update_self]
  rcases h.1.2 with h | h
  · rw [if_pos h, if_pos rfl, if_neg (by omega)]; rfl
  · rw [if_neg (by omega : ¬ x mu = -1), if_neg (by omega), if_pos h]; rfl

omit ok in
theorem bordSub_flip (x : ICoords) (mu : Dir) : bordSub g (flip g x mu) mu = bordSub g x mu := by
  unfold bordSub
  refine bordIdx_congr (fun nu hn => ?_)
  unfold nat flip; rw [Function.update_of_ne hn]

omit ok in
/-- arithmetic of one step on the grid of ranks -/
theorem mod_step_dw {a R : Nat} (h : a < R) : ∃ k : Int, (((a + R - 1) % R : Nat) : Int) = a + (-1) + k * R := by
  by_cases h0 : a = 0
  · subst h0
    refine ⟨1, ?_⟩
    have e : (0 + R - 1) % R = R - 1 := by rw [Nat.zero_add]; exact Nat.mod_eq_of_lt (by omega)
    rw [e]; omega
  · refine ⟨0, ?_⟩
    have e : (a + R - 1) % R = a - 1 := by
      rw [show a + R - 1 = (a - 1) + R by omega, Nat.add_mod_right]; exact Nat.mod_eq_of_lt (by omega)
    rw [e]; omega

omit ok in
theorem mod_step_up {a R : Nat} (h : a < R) : ∃ k : Int, (((a + 1) % R : Nat) : Int) = a + 1 + k * R := by
  by_cases h0 : a + 1 = R
  · refine ⟨-1, ?_⟩; rw [h0, Nat.mod_self]; omega
  · refine ⟨0, ?_⟩; rw [Nat.mod_eq_of_lt (by omega)]; omega

theorem torus_flip {r : Coords} (hr : IsRank g r) {x : ICoords} {mu : Dir} (h : OneOut g x mu) :
    torus g (rankNeigh g r (oriF g x mu) mu) (pull g (flip g x mu) mu) = torus g r x := by
  have hl := loc_pos ok mu
  refine torus_eq_of ok (fun nu => ?_)
  by_cases hn : nu = mu
  · subst hn
    rcases h.1.2 with hx | hx
    · obtain ⟨k, hk⟩ := mod_step_dw (hr nu)
      refine ⟨-1, k, ?_, ?_⟩
      · unfold rankNeigh oriF
        rw [if_neg (by omega : ¬ x nu = g.loc nu), if_pos rfl, Function.update_self]
        exact hk
      · unfold pull flip
        rw [Function.update_self, Function.update_self, if_pos hx, if_neg (by omega)]; omega
    · obtain ⟨k, hk⟩ := mod_step_up (hr nu)
      refine ⟨1, k, ?_, ?_⟩
      · unfold rankNeigh oriF
        rw [if_pos hx, if_neg (by decide), Function.update_self]
        exact hk
      · unfold pull flip
        rw [Function.update_self, Function.update_self, if_neg (by omega : ¬ x nu = -1), if_pos rfl]; omega
  · refine ⟨0, 0, ?_, ?_⟩
    · unfold rankNeigh; split <;> rw [Function.update_of_ne hn] <;> omega
    · unfold pull flip; rw [Function.update_of_ne hn, Function.update_of_ne hn]; omega

theorem idx_bord_off {x : ICoords} {mu : Dir} (h : OneOut g x mu) :
    idx g x - g.locVol = haloOff g 1 mu (oriF g x mu) + bordSub g x mu := by
  rw [idx_bord ok h, haloOff_val, oriF_val]; omega

/-- content of the halo site `x` after the exchange restricted to `sel` -/
theorem halo_exchange {V : Type} (sel : Fin 2 → Dir → Bool) (F : Nat → Nat → V) {r : Coords} (hr : IsRank g r) :
    ∃ buf, haloRecvBuf g 1 sel (surfSendBuf g F) r = some buf ∧
      ∀ x mu, OneOut g x mu → buf (idx g x - g.locVol) =
        if sel (1 - oriF g x mu) mu then
          some (F (getLoclxAndRankOfCoords g (torus g r x)).1 (getLoclxAndRankOfCoords g (torus g r x)).2)
        else none := by
  obtain ⟨buf, hb, hs⟩ := haloRecvBuf_spec ok DcOk.one sel (surfSendBuf g F) hr
  refine ⟨buf, hb, fun x mu hx => ?_⟩
  have hx' := flip_oneOut ok hx
  rw [idx_bord_off ok hx, hs mu _ _ hx.1.1 (by unfold haloLen; rw [Nat.div_one]; exact bordSub_lt ok hx)]
  refine if_congr Iff.rfl ?_ rfl
  have e : haloOff g 1 mu (1 - oriF g x mu) + bordSub g x mu = idx g (flip g x mu) - g.locVol := by
    rw [idx_bord_off ok hx', oriF_flip ok hx, bordSub_flip]
  rw [e]
  unfold surfSendBuf
  rw [surf_of_bord ok _ hx', Option.map_some, ← torus_flip ok hr hx,
    owner_torus ok (rankNeigh_isRank ok hr _ _) (pull_inside ok hx')]

end

/-- C05: for any lattice, grid of ranks and content of the field on the ranks, `updateHalo` completes on every rank (each receive
is matched by a send) and the halo site `i` holds what the owner of the site with the same global coordinates stores there. -/
theorem C05_halo_update {V : Type} (g : Geo) (ok : g.Ok) (F : Nat → Nat → V) (r : Coords) (hr : IsRank g r) :
    ∃ buf, haloAfterUpdate g F r = some buf ∧
      ∀ i, i < g.bordVol → ∃ c, glbCoordOfLoclx g r (g.locVol + i) = some c ∧
        buf i = some (F (getLoclxAndRankOfCoords g c).1 (getLoclxAndRankOfCoords g c).2) := by
  obtain ⟨buf, hb, hs⟩ := halo_exchange ok (fun _ _ => true) F hr
  refine ⟨buf, hb, fun i hi => ?_⟩
  obtain ⟨x, mu, hx, he⟩ := idx_surj_bord ok hi
  refine ⟨torus g r x, ?_, ?_⟩
  · rw [← he]; exact glbCoord_table ok r (ext_oneOut hx) (by rw [nOut_oneOut hx]; omega)
  · have := hs x mu hx
    rw [he, Nat.add_sub_cancel_left] at this
    simpa using this

/-- C05, selective exchange (`dirs` argument): the sites of the halo reached along a direction `mu` on the side `o` are filled with
the owner's data when the opposite sending orientation was selected, and left untouched otherwise. `x` are the coordinates of the site relative to the local box. -/
theorem C05_selective_exchange {V : Type} (g : Geo) (ok : g.Ok) (sel : Fin 2 → Dir → Bool) (F : Nat → Nat → V)
    (r : Coords) (hr : IsRank g r) :
    ∃ buf, haloRecvBuf g 1 sel (surfSendBuf g F) r = some buf ∧
      ∀ (x : ICoords) (mu : Dir), Ext g x → ¬ Inside g x mu → (∀ nu, nu ≠ mu → Inside g x nu) →
        ∃ i : Nat, g.fullLx x = some ((g.locVol + i : Nat) : Int) ∧ i < g.bordVol ∧
          buf i = if sel (if x mu = -1 then 1 else 0) mu then
              some (F (getLoclxAndRankOfCoords g (torus g r x)).1 (getLoclxAndRankOfCoords g (torus g r x)).2)
            else none := by
  obtain ⟨buf, hb, hs⟩ := halo_exchange ok sel F hr
  refine ⟨buf, hb, fun x mu hE hO hI => ?_⟩
  have hx : OneOut g x mu := ⟨ext_out hE hO, hI⟩
  have hrg := idx_bord_range ok hx
  refine ⟨idx g x - g.locVol, ?_, by omega, ?_⟩
  · rw [idx_spec ok hE (by rw [nOut_oneOut hx]; omega), show g.locVol + (idx g x - g.locVol) = idx g x by omega]
  · rw [hs x mu hx]
    have : 1 - oriF g x mu = if x mu = -1 then 1 else 0 := by
      have := loc_pos ok mu
      unfold oriF
      rcases hx.1.2 with h | h
      · rw [if_pos h, if_neg (by omega)]; rfl
      · rw [if_neg (by omega : ¬ x mu = -1), if_pos h]; rfl
    rw [this]

/-- `exGeo` has 12 ranks and a non empty halo -/
example : (∀ mu, ![1, 0, 1, 2] mu < exGeo.R mu) ∧ exGeo.bordVol = 160 ∧ exGeo.locVol = 64 := by decide
example : ∀ mu, Ext exGeo ![-1, 3, 0, 1] ∧ ¬ Inside exGeo ![-1, 3, 0, 1] 0 ∧ (mu ≠ 0 → Inside exGeo ![-1, 3, 0, 1] mu) := by decide

/-! ### edges -/

def flip2 (g : Geo) (x : ICoords) (e : Edge) : ICoords := flip g (flip g x (edgeDirs e).1) (edgeDirs e).2

theorem edgeOff_val (e : Edge) (o1 o2 : Fin 2) : edgeOff g 1 e o1 o2 = g.edgeOffset e + (2 * o1.val + o2.val) * edgeVolq g := by
  unfold edgeOff
  rw [edgeVol_eq, Nat.div_one]
  congr 1
  refine Nat.div_eq_of_eq_mul_left (by omega) (by ring)

theorem edgeOff_mul {dc : Nat} (h : DcOk g dc) (e : Edge) (o1 o2 : Fin 2) : edgeOff g dc e o1 o2 * dc = edgeOff g 1 e o1 o2 := by
  have : edgeOff g dc e o1 o2 = edgeOff g 1 e o1 o2 / dc := by unfold edgeOff; rw [Nat.div_one]
  rw [this]
  refine Nat.div_mul_cancel ?_
  rw [edgeOff_val]
  exact Nat.dvd_add (dvd_foldl_add _ (fun a _ => h.2.2 a) _ (Nat.dvd_zero _))
    (Nat.dvd_mul_left_of_dvd (dvd_foldl_add _ (fun a _ => h.2.2 a) _ (Nat.dvd_zero _)) _)

theorem edgeLen_mul {dc : Nat} (h : DcOk g dc) (e : Edge) : edgeLen g dc e * dc = g.edgeDirVol e := Nat.div_mul_cancel (h.2.2 e)

theorem edgeBlocks_disjoint1 {m n : Edge} {o1 o2 p1 p2 : Fin 2} {i : Nat}
    (h1 : edgeOff g 1 m o1 o2 ≤ i ∧ i < edgeOff g 1 m o1 o2 + g.edgeDirVol m)
    (h2 : edgeOff g 1 n p1 p2 ≤ i ∧ i < edgeOff g 1 n p1 p2 + g.edgeDirVol n) : m = n ∧ o1 = p1 ∧ o2 = p2 := by
  rw [edgeOff_val] at h1 h2
  have b1 := edgeOffset_le (g := g) (m := m)
  have b2 := edgeOffset_le (g := g) (m := n)
  have hk : 2 * o1.val + o2.val = 2 * p1.val + p2.val := by
    generalize 2 * o1.val + o2.val = a at *
    generalize 2 * p1.val + p2.val = b at *
    rcases Nat.lt_trichotomy a b with h | h | h
    · have : (a + 1) * edgeVolq g ≤ b * edgeVolq g := Nat.mul_le_mul_right _ h
      rw [Nat.add_mul, Nat.one_mul] at this; omega
    · exact h
    · have : (b + 1) * edgeVolq g ≤ a * edgeVolq g := Nat.mul_le_mul_right _ h
      rw [Nat.add_mul, Nat.one_mul] at this; omega
  rw [hk] at h1
  have := edgeOffset_decode (g := g) (m := m) (n := n) (i := i - ((2 * p1.val + p2.val) * edgeVolq g + g.edgeOffset m))
    (j := i - ((2 * p1.val + p2.val) * edgeVolq g + g.edgeOffset n)) (by omega) (by omega) (by omega)
  exact ⟨this.1, Fin.ext (by omega), Fin.ext (by omega)⟩

theorem edgeBlocks_disjoint {dc : Nat} (hdc : DcOk g dc) {m n : Edge} {o1 o2 p1 p2 : Fin 2} {i : Nat}
    (h1 : edgeOff g dc m o1 o2 ≤ i ∧ i < edgeOff g dc m o1 o2 + edgeLen g dc m)
    (h2 : edgeOff g dc n p1 p2 ≤ i ∧ i < edgeOff g dc n p1 p2 + edgeLen g dc n) : m = n ∧ o1 = p1 ∧ o2 = p2 :=
  edgeBlocks_disjoint1 (block_mul h1 hdc.1 (edgeOff_mul hdc m o1 o2) (edgeLen_mul hdc m))
    (block_mul h2 hdc.1 (edgeOff_mul hdc n p1 p2) (edgeLen_mul hdc n))

theorem edgeTag_inj {p q : Edge × Fin 2 × Fin 2} (h : edgeTag p = edgeTag q) : p = q := by
  obtain ⟨a, b, c⟩ := p; obtain ⟨a', b', c'⟩ := q
  unfold edgeTag at h; simp only at h
  have : a.val = a'.val ∧ b.val = b'.val ∧ c.val = c'.val := by omega
  rw [Fin.ext this.1, Fin.ext this.2.1, Fin.ext this.2.2]

theorem mem_edgeTrip {p : Edge × Fin 2 × Fin 2} :
    p ∈ edgeTrip g ↔ (1 < g.R (edgeDirs p.1).1 ∧ 1 < g.R (edgeDirs p.1).2) := by
  unfold edgeTrip
  rw [List.mem_flatMap]
  constructor
  · rintro ⟨e, _, h⟩
    split at h
    · rename_i hp
      rw [Bool.and_eq_true, isPar_iff, isPar_iff] at hp
      have : p.1 = e := by simp only [List.mem_cons, List.not_mem_nil, or_false] at h; rcases h with h | h | h | h <;> rw [h]
      rw [this]; exact hp
    · simp at h
  · rintro ⟨h1, h2⟩
    refine ⟨p.1, mem_edges p.1, ?_⟩
    rw [if_pos (by rw [Bool.and_eq_true, isPar_iff, isPar_iff]; exact ⟨h1, h2⟩)]
    obtain ⟨e, a, b⟩ := p
    have : ∀ a b : Fin 2, (e, a, b) ∈ [(e, 0, 0), (e, 0, 1), (e, 1, 0), (e, (1 : Fin 2), (1 : Fin 2))] := by
      intro a b
      have fa : a = 0 ∨ a = 1 := by omega
      have fb : b = 0 ∨ b = 1 := by omega
      rcases fa with rfl | rfl <;> rcases fb with rfl | rfl <;> simp
    exact this a b

/-- one step along one direction with the formula of rank_edge_neigh -/
theorem edgeStep {a R : Nat} (h : a < R) (o : Fin 2) : (a + R + 2 * o.val - 1) % R = if o = 0 then (a + R - 1) % R else (a + 1) % R := by
  have fo : o = 0 ∨ o = 1 := by omega
  rcases fo with rfl | rfl
  · rfl
  · rw [if_neg (by decide), show a + R + 2 * (1 : Fin 2).val - 1 = a + 1 + R by show a + R + 2 * 1 - 1 = _; omega, Nat.add_mod_right]

theorem rankEdgeNeigh_eq {r : Coords} (hr : IsRank g r) (o1 o2 : Fin 2) (e : Edge) :
    rankEdgeNeigh g r o1 o2 e = rankNeigh g (rankNeigh g r o1 (edgeDirs e).1) o2 (edgeDirs e).2 := by
  have hne := edge_ne e
  unfold rankEdgeNeigh rankNeigh
  simp only [Function.update_of_ne hne.symm]
  rw [edgeStep (hr _), edgeStep (hr _)]
  have fo : ∀ o : Fin 2, o = 0 ∨ o = 1 := by decide
  have h10 : (1 : Fin 2) ≠ 0 := by decide
  rcases fo o1 with rfl | rfl <;> rcases fo o2 with rfl | rfl <;>
    simp only [h10, if_true, if_false, Function.update_of_ne hne.symm]

theorem rankNeigh_comm (r : Coords) (o1 o2 : Fin 2) {mu nu : Dir} (h : mu ≠ nu) :
    rankNeigh g (rankNeigh g r o1 mu) o2 nu = rankNeigh g (rankNeigh g r o2 nu) o1 mu := by
  unfold rankNeigh
  split <;> split <;> simp only [Function.update_of_ne h, Function.update_of_ne h.symm] <;> rw [Function.update_comm h.symm]

section
variable (ok : g.Ok)
include ok

theorem rankEdgeNeigh_isRank {r : Coords} (h : IsRank g r) (o1 o2 : Fin 2) (e : Edge) : IsRank g (rankEdgeNeigh g r o1 o2 e) := by
  rw [rankEdgeNeigh_eq h]
  exact rankNeigh_isRank ok (rankNeigh_isRank ok h _ _) _ _

theorem rankEdgeNeigh_inv {r : Coords} (h : IsRank g r) (o1 o2 : Fin 2) (e : Edge) :
    rankEdgeNeigh g (rankEdgeNeigh g r (1 - o1) (1 - o2) e) o1 o2 e = r := by
  have hne := edge_ne e
  rw [rankEdgeNeigh_eq (rankEdgeNeigh_isRank ok h _ _ _), rankEdgeNeigh_eq h, rankNeigh_comm r _ _ hne,
    rankNeigh_inv ok (rankNeigh_isRank ok h _ _), rankNeigh_inv ok h]

theorem edgeRecv_step {V : Type} (dc : Nat) (sb : Coords → Nat → Option V) {r : Coords} (hr : IsRank g r)
    {p : Edge × Fin 2 × Fin 2} (hp : p ∈ edgeTrip g) (b : Nat → Option V) :
    edgeRecvStep g dc (edgeMsgs g dc sb) r (some b) p =
      some (blockWrite b (edgeOff g dc p.1 (1 - p.2.1) (1 - p.2.2)) (edgeLen g dc p.1)
        (fun k => sb (rankEdgeNeigh g r (1 - p.2.1) (1 - p.2.2) p.1) (edgeOff g dc p.1 p.2.1 p.2.2 + k))) := by
  unfold edgeRecvStep
  simp only [Option.bind_some]
  have hr' := rankEdgeNeigh_isRank ok hr (1 - p.2.1) (1 - p.2.2) p.1
  rw [find?_unique _ _ (Msg.mk (lxOfCoord (rankEdgeNeigh g r (1 - p.2.1) (1 - p.2.2) p.1) g.R)
      (lxOfCoord (rankEdgeNeigh g (rankEdgeNeigh g r (1 - p.2.1) (1 - p.2.2) p.1) p.2.1 p.2.2 p.1) g.R) (edgeTag p)
      (fun k => sb (rankEdgeNeigh g r (1 - p.2.1) (1 - p.2.2) p.1) (edgeOff g dc p.1 p.2.1 p.2.2 + k)))]
  · rfl
  · unfold edgeMsgs
    rw [List.mem_flatMap]
    exact ⟨_, (mem_allRanks ok).2 hr', List.mem_map.2 ⟨p, hp, rfl⟩⟩
  · simp only [decide_eq_true_eq]
    exact ⟨trivial, by rw [rankEdgeNeigh_inv ok hr], trivial⟩
  · intro m' hm' hP
    unfold edgeMsgs at hm'
    rw [List.mem_flatMap] at hm'
    obtain ⟨r2, hr2, hm2⟩ := hm'
    obtain ⟨q, hq, rfl⟩ := List.mem_map.1 hm2
    simp only [decide_eq_true_eq] at hP
    obtain ⟨h1, h2, h3⟩ := hP
    have e1 := lxOfCoord_inj ((mem_allRanks ok).1 hr2) hr' h1
    have e2 := edgeTag_inj h3
    subst e2; subst e1; rfl

theorem edgeRecvBuf_spec {V : Type} {dc : Nat} (hdc : DcOk g dc) (sb : Coords → Nat → Option V) {r : Coords} (hr : IsRank g r) :
    ∃ buf, edgeRecvBuf g dc sb r = some buf ∧
      ∀ (e : Edge) (o1 o2 : Fin 2) (k : Nat), 1 < g.R (edgeDirs e).1 → 1 < g.R (edgeDirs e).2 → k < edgeLen g dc e →
        buf (edgeOff g dc e o1 o2 + k) = sb (rankEdgeNeigh g r o1 o2 e) (edgeOff g dc e (1 - o1) (1 - o2) + k) := by
  refine ⟨_, foldl_some _ (fun b p => blockWrite b (edgeOff g dc p.1 (1 - p.2.1) (1 - p.2.2)) (edgeLen g dc p.1)
        (fun k => sb (rankEdgeNeigh g r (1 - p.2.1) (1 - p.2.2) p.1) (edgeOff g dc p.1 p.2.1 p.2.2 + k))) _ _
        (fun p hp b => edgeRecv_step ok dc sb hr hp b), ?_⟩
  intro e o1 o2 k h1 h2 hk
  have oo : ∀ o : Fin 2, 1 - (1 - o) = o := by decide
  have := (foldBlocks_spec (fun p : Edge × Fin 2 × Fin 2 => edgeOff g dc p.1 (1 - p.2.1) (1 - p.2.2)) (fun p => edgeLen g dc p.1)
      (fun p k => sb (rankEdgeNeigh g r (1 - p.2.1) (1 - p.2.2) p.1) (edgeOff g dc p.1 p.2.1 p.2.2 + k)) (edgeTrip g) (fun _ => none) (edgeOff g dc e o1 o2 + k)).1
      (e, 1 - o1, 1 - o2) (mem_edgeTrip.2 ⟨h1, h2⟩) (by simp only [oo]; omega) (by
        rintro ⟨e', q1, q2⟩ _ hb
        simp only at hb
        obtain ⟨f1, f2, f3⟩ := edgeBlocks_disjoint hdc (o1 := o1) (o2 := o2) (m := e) (by omega) hb
        subst f1
        rw [← oo q1, ← oo q2, ← f2, ← f3])
  rw [this]
  simp only [oo, Nat.add_sub_cancel_left]

omit ok in
theorem flip_ne {x : ICoords} {mu nu : Dir} (h : nu ≠ mu) : flip g x mu nu = x nu := by
  unfold flip; rw [Function.update_of_ne h]

omit ok in
theorem flip_out {x : ICoords} {mu : Dir} (h : Out g x mu) : Out g (flip g x mu) mu := by
  refine ⟨h.1, ?_⟩
  unfold flip; rw [Function.update_self]; split <;> simp

theorem flip2_twoOut {x : ICoords} {e : Edge} (h : TwoOut g x e) : TwoOut g (flip2 g x e) e := by
  have hne := edge_ne e
  refine ⟨?_, ?_, fun nu h1 h2 => ?_⟩
  · have := flip_out h.1
    refine ⟨this.1, ?_⟩
    unfold flip2; rw [flip_ne hne]; exact this.2
  · unfold flip2
    refine flip_out ⟨h.2.1.1, ?_⟩
    rw [flip_ne hne.symm]; exact h.2.1.2
  · have := h.2.2 nu h1 h2
    unfold Inside at *
    unfold flip2; rw [flip_ne h2, flip_ne h1]; exact this

theorem oriF_flip' {x : ICoords} {mu : Dir} (h : Out g x mu) : oriF g (flip g x mu) mu = 1 - oriF g x mu := by
  have := loc_pos ok mu
  unfold oriF flip
  rw [Function.update_self]
  rcases h.2 with h | h
  · rw [if_pos h, if_pos rfl, if_neg (by omega)]; rfl
  · rw [if_neg (by omega : ¬ x mu = -1), if_neg (by omega), if_pos h]; rfl

omit ok in
theorem oriF_congr {x y : ICoords} {mu : Dir} (h : x mu = y mu) : oriF g x mu = oriF g y mu := by unfold oriF; rw [h]

theorem edgeSub_flip2 (x : ICoords) (e : Edge) : edgeSub g (flip2 g x e) e = edgeSub g x e := by
  unfold edgeSub
  refine edgeIdx_congr (fun nu h1 h2 => ?_)
  unfold nat flip2; rw [flip_ne h2, flip_ne h1]

/-- the coordinate of a pulled and flipped site along one direction -/
theorem pull_flip_step {r : Coords} (hr : IsRank g r) {x : ICoords} {mu : Dir} (h : Out g x mu) :
    ∃ s k : Int, ((rankNeigh g r (oriF g x mu) mu mu : Nat) : Int) = r mu + s + k * g.R mu ∧
      pull g (flip g x mu) mu mu = x mu - s * g.loc mu := by
  have hl := loc_pos ok mu
  rcases h.2 with hx | hx
  · obtain ⟨k, hk⟩ := mod_step_dw (hr mu)
    refine ⟨-1, k, ?_, ?_⟩
    · unfold rankNeigh oriF
      rw [if_neg (by omega : ¬ x mu = g.loc mu), if_pos rfl, Function.update_self]
      exact hk
    · unfold pull flip
      rw [Function.update_self, Function.update_self, if_pos hx, if_neg (by omega)]; omega
  · obtain ⟨k, hk⟩ := mod_step_up (hr mu)
    refine ⟨1, k, ?_, ?_⟩
    · unfold rankNeigh oriF
      rw [if_pos hx, if_neg (by decide), Function.update_self]
      exact hk
    · unfold pull flip
      rw [Function.update_self, Function.update_self, if_neg (by omega : ¬ x mu = -1), if_pos rfl]; omega

omit ok in
theorem rankNeigh_ne (r : Coords) (o : Fin 2) {mu nu : Dir} (h : nu ≠ mu) : rankNeigh g r o mu nu = r nu := by
  unfold rankNeigh; split <;> rw [Function.update_of_ne h]

omit ok in
theorem rankNeigh_congr {r r' : Coords} (o : Fin 2) {mu : Dir} (h : r mu = r' mu) : rankNeigh g r o mu mu = rankNeigh g r' o mu mu := by
  unfold rankNeigh; split <;> rw [Function.update_self, Function.update_self, h]

omit ok in
theorem pull_congr {x y : ICoords} {mu : Dir} (h : x mu = y mu) : pull g x mu mu = pull g y mu mu := by
  unfold pull; rw [Function.update_self, Function.update_self, h]

omit ok in
theorem flip_congr {x y : ICoords} {mu : Dir} (h : x mu = y mu) : flip g x mu mu = flip g y mu mu := by
  unfold flip; rw [Function.update_self, Function.update_self, h]

theorem torus_flip2 {r : Coords} (hr : IsRank g r) {x : ICoords} {e : Edge} (h : TwoOut g x e) :
    torus g (rankEdgeNeigh g r (oriF g x (edgeDirs e).1) (oriF g x (edgeDirs e).2) e) (pull2 g (flip2 g x e) e) = torus g r x := by
  have hne := edge_ne e
  rw [rankEdgeNeigh_eq hr]
  refine torus_eq_of ok (fun nu => ?_)
  by_cases h1 : nu = (edgeDirs e).1
  · subst h1
    obtain ⟨s, k, a, b⟩ := pull_flip_step ok hr h.1
    refine ⟨s, k, ?_, ?_⟩
    · rw [rankNeigh_ne _ _ hne]; exact a
    · rw [← b]; unfold pull2 flip2; rw [pull_ne hne]; exact pull_congr (flip_ne hne)
  by_cases h2 : nu = (edgeDirs e).2
  · subst h2
    obtain ⟨s, k, a, b⟩ := pull_flip_step ok hr h.2.1
    refine ⟨s, k, ?_, ?_⟩
    · rw [← a]; congr 1; exact rankNeigh_congr _ (rankNeigh_ne _ _ hne.symm)
    · rw [← b]; unfold pull2 flip2; refine pull_congr ?_
      rw [pull_ne hne.symm]; exact flip_congr (flip_ne hne.symm)
  · refine ⟨0, 0, ?_, ?_⟩
    · rw [rankNeigh_ne _ _ h2, rankNeigh_ne _ _ h1]; omega
    · unfold pull2 flip2; rw [pull_ne h2, pull_ne h1, flip_ne h2, flip_ne h1]; omega

theorem idx_edge_off {x : ICoords} {e : Edge} (h : TwoOut g x e) :
    idx g x - g.locVol - g.bordVol = edgeOff g 1 e (oriF g x (edgeDirs e).1) (oriF g x (edgeDirs e).2) + edgeSub g x e := by
  rw [idx_edge ok h, edgeOff_val, oriF_val, oriF_val]; omega

theorem edge_exchange {V : Type} (F : Nat → Nat → V) {r : Coords} (hr : IsRank g r) :
    ∃ buf, edgesAfterUpdate g F r = some buf ∧
      ∀ x e, TwoOut g x e → buf (idx g x - g.locVol - g.bordVol) =
          some (F (getLoclxAndRankOfCoords g (torus g r x)).1 (getLoclxAndRankOfCoords g (torus g r x)).2) := by
  obtain ⟨buf, hb, hs⟩ := edgeRecvBuf_spec ok DcOk.one (edgeSendBuf g F) hr
  refine ⟨buf, hb, fun x e hx => ?_⟩
  have hx' := flip2_twoOut ok hx
  have hne := edge_ne e
  rw [idx_edge_off ok hx, hs e _ _ _ hx.1.1 hx.2.1.1 (by unfold edgeLen; rw [Nat.div_one]; exact edgeSub_lt ok hx)]
  have o1 : oriF g (flip2 g x e) (edgeDirs e).1 = 1 - oriF g x (edgeDirs e).1 := by
    rw [← oriF_flip' ok hx.1]; exact oriF_congr (flip_ne hne)
  have o2 : oriF g (flip2 g x e) (edgeDirs e).2 = 1 - oriF g x (edgeDirs e).2 := by
    rw [← oriF_flip' ok hx.2.1]; exact oriF_congr (flip_congr (flip_ne hne.symm))
  rw [← o1, ← o2, ← edgeSub_flip2 ok x e, ← idx_edge_off ok hx']
  unfold edgeSendBuf
  rw [surf_of_edge ok _ hx', Option.map_some, ← torus_flip2 ok hr hx,
    owner_torus ok (rankEdgeNeigh_isRank ok hr _ _ _) (pull2_inside ok hx')]

end

/-- C06: for any lattice, grid of ranks and field, `updateEdges` completes on every rank and the edge site `i` holds what the owner
of the site with the same global coordinates stores there. -/
theorem C06_edges_update {V : Type} (g : Geo) (ok : g.Ok) (F : Nat → Nat → V) (r : Coords) (hr : IsRank g r) :
    ∃ buf, edgesAfterUpdate g F r = some buf ∧
      ∀ i, i < g.edgeVol → ∃ c, glbCoordOfLoclx g r (g.locVol + g.bordVol + i) = some c ∧
        buf i = some (F (getLoclxAndRankOfCoords g c).1 (getLoclxAndRankOfCoords g c).2) := by
  obtain ⟨buf, hb, hs⟩ := edge_exchange ok F hr
  refine ⟨buf, hb, fun i hi => ?_⟩
  obtain ⟨x, e, hx, he⟩ := idx_surj_edge ok hi
  refine ⟨torus g r x, ?_, ?_⟩
  · rw [← he]; exact glbCoord_table ok r (ext_twoOut hx) (by rw [nOut_twoOut hx])
  · have := hs x e hx
    rw [he, Nat.add_assoc, Nat.add_sub_cancel_left, Nat.add_sub_cancel_left] at this
    exact this

example : exGeo.edgeVol = 128 ∧ (∀ mu, ![1, 0, 1, 2] mu < exGeo.R mu) := by decide

end Nissa.Lx
