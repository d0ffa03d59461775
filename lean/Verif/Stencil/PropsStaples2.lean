import Verif.Stencil.PropsStaples
import Verif.Smearing.LinkSmear

/-! # C49: squared and rectangular staples -/

set_option linter.all false

namespace Nissa.Stap
open Nissa.Lx Nissa.Sten Nissa.Gauge Nissa.Paths Nissa.Su3f
open Matrix

/-! ### Specification -/

/-- The open path in the direction `nu`, along `mu` and back -/
def fwPath (mu nu : Dir) : List Move := [(nu, true), (mu, true), (nu, false)]
/-- The same on the other side -/
def bwPath (mu nu : Dir) : List Move := [(nu, false), (mu, true), (nu, true)]
/-- The three paths closing a 2x1 rectangle with the link `mu`, on the forward side of the plane `mu,nu` -/
def fwRects (mu nu : Dir) : List (List Move) :=
  [[(mu, false), (nu, true), (mu, true), (mu, true), (nu, false)],
   [(nu, true), (nu, true), (mu, true), (nu, false), (nu, false)],
   [(nu, true), (mu, true), (mu, true), (nu, false), (mu, false)]]
/-- The three paths on the backward side -/
def bwRects (mu nu : Dir) : List (List Move) :=
  [[(mu, false), (nu, false), (mu, true), (mu, true), (nu, true)],
   [(nu, false), (nu, false), (mu, true), (nu, true), (nu, true)],
   [(nu, false), (mu, true), (mu, true), (nu, true), (mu, false)]]
/-- Sum of the products of the links along a list of paths -/
def pathSum (g : Geo) (U : Coords → Quad) (x : Coords) (ps : List (List Move)) : M3 := (ps.map (pathProd g U x)).sum

section
variable {g : Geo} (ok : g.Ok)
include ok

theorem torus_box (r : Coords) (x : ICoords) : torus g r x ∈ box g.L := by
  rw [mem_box]; intro mu
  have := L_pos ok mu
  have h := torus_cast ok r x mu
  have h2 := Int.emod_lt_of_pos (x mu + r mu * g.loc mu) (show (0 : Int) < g.L mu by exact_mod_cast this)
  omega

theorem conf0_local (U : Nat → Nat → Quad) (jc : Coords → Nat → Quad) {r : Coords} (hr : IsRank g r) {x : ICoords} (hx : ∀ nu, Inside g x nu) :
    confMem0 g U jc r (idx g x) = glob g U (torus g r x) := by
  unfold confMem0 glob
  rw [if_pos (idx_loc_lt ok hx), owner_torus ok hr hx]

theorem conf1_local (ji : Nat) (U : Nat → Nat → Quad) (jc jb : Coords → Nat → Quad) (jq : Quad) {r : Coords} (hr : IsRank g r) {x : ICoords}
    (hx : ∀ nu, Inside g x nu) : confMem1 g ji U jc jb jq r (idx g x) = glob g U (torus g r x) := by
  unfold confMem1
  have := idx_loc_lt ok hx
  rw [if_neg (by omega), conf0_local ok U jc hr hx]

theorem conf1_halo (ji : Nat) (U : Nat → Nat → Quad) (jc jb : Coords → Nat → Quad) (jq : Quad) {r : Coords} (hr : IsRank g r) {y : ICoords}
    {mu : Dir} (hy : OneOut g y mu) (hv : y mu = g.loc mu) : confMem1 g ji U jc jb jq r (idx g y) = glob g U (torus g r y) := by
  obtain ⟨a, b⟩ := fw_range ok hy hv
  have hb := bordOffset_le (g := g) (m := mu)
  have hl := loc_pos ok mu
  have hy' := flip_oneOut ok hy
  have hv' : Lx.flip g y mu mu = -1 := by unfold Lx.flip; rw [Function.update_self, if_neg (by omega)]
  obtain ⟨a', b'⟩ := bw_range ok hy' hv'
  have ho : oriF g y mu = 1 - 0 := by unfold oriF; rw [if_pos hv]; rfl
  unfold confMem1
  rw [if_pos (by omega), show g.bordVolh + (idx g y - (g.locVol + g.bordVolh)) = idx g y - g.locVol by omega, exchange_eq ok 0 _ jq hr hy ho]
  unfold confSendBuf
  rw [if_pos (by omega), surf_of_bord ok _ hy', Option.getD_some, conf0_local ok U jc (rankNeigh_isRank ok hr _ _) (pull_inside ok hy'),
    ← ho, torus_flip ok hr hy]

/-- the configuration at the forward neighbours, once the forward halo is there -/
theorem conf1_up (ji : Nat) (U : Nat → Nat → Quad) (jc jb : Coords → Nat → Quad) (jq : Quad) {r : Coords} (hr : IsRank g r) {x : ICoords}
    (hx : ∀ nu, Inside g x nu) (mu : Dir) :
    confMem1 g ji U jc jb jq r (upT g r ji (idx g x) mu) = glob g U (tshift g (torus g r x) mu 1) := by
  obtain ⟨y, h1, h2, h3⟩ := up_cases ok r ji hx mu
  rw [h1, ← h2]
  rcases h3 with h | ⟨h, hv, _⟩
  · exact conf1_local ok ji U jc jb jq hr h
  · exact conf1_halo ok ji U jc jb jq hr h hv

/-- and before, on the sites which are not on the forward surface -/
theorem conf0_up (ji : Nat) (U : Nat → Nat → Quad) (jc : Coords → Nat → Quad) {r : Coords} (hr : IsRank g r) {x : ICoords}
    (hx : ∀ nu, Inside g x nu) (hn : ∀ mu, 1 < g.R mu → x mu ≠ (g.loc mu : Int) - 1) (mu : Dir) :
    confMem0 g U jc r (upT g r ji (idx g x) mu) = glob g U (tshift g (torus g r x) mu 1) := by
  obtain ⟨y, h1, h2, h3⟩ := up_cases ok r ji hx mu
  rw [h1, ← h2]
  rcases h3 with h | ⟨h, hv, _, hc⟩
  · exact conf0_local ok U jc hr h
  · exact absurd hc (hn mu h.1.1)

/-- canonical order of the displacements in a plane -/
theorem plane_rules {mu nu : Dir} (hne : nu ≠ mu) :
    (∀ y a b, tshift g (tshift g y nu a) mu b = tshift g (tshift g y mu b) nu a) ∧
    (∀ y ∈ box g.L, ∀ k, tshift g (tshift g y k 1) k (-1) = y) ∧ (∀ y ∈ box g.L, ∀ k, tshift g (tshift g y k (-1)) k 1 = y) ∧
    (∀ y ∈ box g.L, ∀ k d, tshift g y k d ∈ box g.L) :=
  ⟨fun y a b => tshift_comm g y hne a b, fun y hy k => tshift_back ok hy k 1 (.inl rfl), fun y hy k => tshift_back ok hy k (-1) (.inr rfl),
    fun y hy k d => tshift_mem_box ok hy k d⟩

theorem sq_spec (ji : Nat) {sched : Nat → Dir → Fin 3 → List Nat → List Nat} (hsc : SchedOk sched) (jc jb : Coords → Nat → Quad)
    (jb' : Coords → Nat × Dir → M3) (jq : Quad) (U : Nat → Nat → Quad) (out0 : Coords → Stap) {r : Coords} (hr : IsRank g r) {x : ICoords}
    (hx : ∀ nu, Inside g x nu) (mu : Dir) (inu : Fin 3) :
    compute_squared_staples_lx_conf g ji sched jc jb jb' jq U out0 r (idx g x, mu, fwc inu) =
      pathProd g (glob g U) (torus g r x) (fwPath mu (pd mu inu)) ∧
    compute_squared_staples_lx_conf g ji sched jc jb jb' jq U out0 r (idx g x, mu, bwc inu) =
      pathProd g (glob g U) (torus g r x) (bwPath mu (pd mu inu)) := by
  unfold compute_squared_staples_lx_conf
  refine overlapped_spec ok ji hsc jb' jq out0 (fun c mu inu => pathProd g (glob g U) c (fwPath mu (pd mu inu)))
    (fun c mu inu => pathProd g (glob g U) c (bwPath mu (pd mu inu))) ?_ ?_ ?_ hr hx mu inu
  · intro r hr x hx hn mu inu
    obtain ⟨p1, p2, p3, p4⟩ := plane_rules ok (pd_ne mu inu)
    have hb := torus_box ok r x
    unfold sqFw fwPath
    simp only [conf0_local ok U jc hr hx, conf0_up ok ji U jc hr hx hn, pathProd, p1, p2 _ (p4 _ hb _ _), Matrix.mul_one, Matrix.mul_assoc]
  · intro r hr x hx mu inu
    obtain ⟨p1, p2, p3, p4⟩ := plane_rules ok (pd_ne mu inu)
    have hb := torus_box ok r x
    unfold sqFw fwPath
    simp only [conf1_local ok ji U jc jb jq hr hx, conf1_up ok ji U jc jb jq hr hx, pathProd, p1, p2 _ (p4 _ hb _ _), Matrix.mul_one, Matrix.mul_assoc]
  · intro r hr x hx mu inu
    obtain ⟨p1, p2, p3, p4⟩ := plane_rules ok (pd_ne mu inu)
    have hb := torus_box ok r x
    unfold sqBw bwPath
    simp only [conf1_local ok ji U jc jb jq hr hx, conf1_up ok ji U jc jb jq hr hx, pathProd, p2 _ hb, Matrix.mul_one, Matrix.mul_assoc]

/-- the squared staples on the forward halo, as far as they are needed -/
theorem sq1_halo (ji : Nat) (sq : Coords → Stap) (jb : Coords → Nat × Dir → M3) (jq : Quad) (FW : Coords → Dir → Fin 3 → M3)
    (h : ∀ r, IsRank g r → ∀ x, (∀ nu, Inside g x nu) → ∀ mu inu, sq r (idx g x, mu, fwc inu) = FW (torus g r x) mu inu)
    {r : Coords} (hr : IsRank g r) {y : ICoords} {nu : Dir} (hy : OneOut g y nu) (hv : y nu = g.loc nu) {mu : Dir} (hne : mu ≠ nu) :
    sqMem1 g ji sq jb jq r (idx g y, mu, fwc (inuOf nu mu)) = FW (torus g r y) mu (inuOf nu mu) := by
  obtain ⟨a, b⟩ := fw_range ok hy hv
  have hb := bordOffset_le (g := g) (m := nu)
  have hl := loc_pos ok nu
  have hy' := flip_oneOut ok hy
  have hv' : Lx.flip g y nu nu = -1 := by unfold Lx.flip; rw [Function.update_self, if_neg (by omega)]
  obtain ⟨a', b'⟩ := bw_range ok hy' hv'
  have ho : oriF g y nu = 1 - 0 := by unfold oriF; rw [if_pos hv]; rfl
  have hs : exchange g 0 (fun r i mu => sqSendBuf g ji sq jb r (i, mu)) jq r (idx g y - g.locVol) mu = FW (torus g r y) mu (inuOf nu mu) := by
    rw [exchange_eq ok 0 _ jq hr hy ho]
    unfold sqSendBuf
    rw [a', Nat.add_sub_cancel_left]
    refine wr_hit _ _ _ _ ⟨_, List.mem_map.2 ⟨(nu, mu, _), mem_bordTrip.2 ⟨hy.1.1, hne, _, b', rfl⟩, rfl⟩, rfl⟩ ?_
    intro w hw hk
    obtain ⟨⟨nu', mu', i'⟩, ht, rfl⟩ := List.mem_map.1 hw
    obtain ⟨t1, t2, k, t3, t4⟩ := mem_bordTrip.1 ht
    simp only [Prod.mk.injEq] at hk t1 t2 t3 t4
    obtain ⟨rfl, rfl⟩ := hk
    obtain ⟨q1, q2⟩ := bord_decode ok (by omega) (by omega) b' t3 t4
    subst q1
    have hsurf := surf_of_bord ok (rankNeigh g r (1 - 0) nu) hy'
    rw [a', Nat.add_sub_cancel_left] at hsurf
    show sq _ ((surflxOfBordlx g _ _).getD ji, mu', fwc (inuOf nu mu')) = _
    rw [hsurf, Option.getD_some, h _ (rankNeigh_isRank ok hr _ _) _ (pull_inside ok hy'), ← ho, torus_flip ok hr hy]
  unfold sqMem1
  refine wr_hit _ _ _ _ ⟨_, List.mem_map.2 ⟨(nu, mu, 1 * g.bordVolh + g.bordOffset nu + bordSub g y nu), mem_bordTrip.2 ⟨hy.1.1, hne, _, b, rfl⟩, rfl⟩, ?_⟩ ?_
  · simp only; rw [← a]
  intro w hw hk
  obtain ⟨⟨nu', mu', i'⟩, ht, rfl⟩ := List.mem_map.1 hw
  obtain ⟨t1, t2, k, t3, t4⟩ := mem_bordTrip.1 ht
  simp only [Prod.mk.injEq] at hk t1 t2 t3 t4
  obtain ⟨k1, rfl, k3⟩ := hk
  show exchange g 0 _ jq r i' mu' = _
  rw [show i' = idx g y - g.locVol by omega]
  exact hs

theorem sq1_local (ji : Nat) (sq : Coords → Stap) (jb : Coords → Nat × Dir → M3) (jq : Quad) (r : Coords) {x : ICoords}
    (hx : ∀ nu, Inside g x nu) (mu : Dir) (c : Fin 6) : sqMem1 g ji sq jb jq r (idx g x, mu, c) = sq r (idx g x, mu, c) := by
  have := idx_loc_lt ok hx
  unfold sqMem1
  refine wr_miss _ _ _ ?_
  intro w hw hk
  obtain ⟨⟨nu', mu', i'⟩, ht, rfl⟩ := List.mem_map.1 hw
  simp only [Prod.mk.injEq] at hk
  omega

theorem rect_spec (ji : Nat) {sched : Nat → Dir → Fin 3 → List Nat → List Nat} (hsc : SchedOk sched) (U : Coords → Quad)
    (conf : Coords → Nat → Quad) (sq : Coords → Stap) (jb jb' : Coords → Nat × Dir → M3) (jq : Quad) (out0 : Coords → Stap)
    (c0 : ∀ r, IsRank g r → ∀ x, (∀ nu, Inside g x nu) → conf r (idx g x) = U (torus g r x))
    (c1 : ∀ r, IsRank g r → ∀ x, (∀ nu, Inside g x nu) → ∀ mu, conf r (upT g r ji (idx g x) mu) = U (tshift g (torus g r x) mu 1))
    (s0 : ∀ r, IsRank g r → ∀ x, (∀ nu, Inside g x nu) → ∀ mu inu, sq r (idx g x, mu, fwc inu) = pathProd g U (torus g r x) (fwPath mu (pd mu inu)))
    (s1 : ∀ r, IsRank g r → ∀ x, (∀ nu, Inside g x nu) → ∀ mu inu, sq r (idx g x, mu, bwc inu) = pathProd g U (torus g r x) (bwPath mu (pd mu inu)))
    {r : Coords} (hr : IsRank g r) {x : ICoords} (hx : ∀ nu, Inside g x nu) (mu : Dir) (inu : Fin 3) :
    compute_rectangular_staples_lx_conf g ji sched conf sq jb jb' jq out0 r (idx g x, mu, fwc inu) =
      pathSum g U (torus g r x) (fwRects mu (pd mu inu)) ∧
    compute_rectangular_staples_lx_conf g ji sched conf sq jb jb' jq out0 r (idx g x, mu, bwc inu) =
      pathSum g U (torus g r x) (bwRects mu (pd mu inu)) := by
  -- the forward staples at the forward neighbours
  have u0 : ∀ r, IsRank g r → ∀ x, (∀ nu, Inside g x nu) → (∀ mu, 1 < g.R mu → x mu ≠ (g.loc mu : Int) - 1) → ∀ nu mu, mu ≠ nu →
      sq r (upT g r ji (idx g x) nu, mu, fwc (inuOf nu mu)) = pathProd g U (tshift g (torus g r x) nu 1) (fwPath mu nu) := by
    intro r hr x hx hn nu mu hne
    obtain ⟨y, h1, h2, h3⟩ := up_cases ok r ji hx nu
    rw [h1, ← h2]
    rcases h3 with h | ⟨h, hv, _, hc⟩
    · rw [s0 r hr y h, pd_inuOf hne.symm]
    · exact absurd hc (hn nu h.1.1)
  have u1 : ∀ r, IsRank g r → ∀ x, (∀ nu, Inside g x nu) → ∀ nu mu, mu ≠ nu →
      sqMem1 g ji sq jb jq r (upT g r ji (idx g x) nu, mu, fwc (inuOf nu mu)) = pathProd g U (tshift g (torus g r x) nu 1) (fwPath mu nu) := by
    intro r hr x hx nu mu hne
    obtain ⟨y, h1, h2, h3⟩ := up_cases ok r ji hx nu
    rw [h1, ← h2]
    rcases h3 with h | ⟨h, hv, _, hc⟩
    · rw [sq1_local ok ji sq jb jq r h, s0 r hr y h, pd_inuOf hne.symm]
    · rw [sq1_halo ok ji sq jb jq (fun c mu inu => pathProd g U c (fwPath mu (pd mu inu))) s0 hr h hv hne, pd_inuOf hne.symm]
  unfold compute_rectangular_staples_lx_conf
  refine overlapped_spec ok ji hsc jb' jq out0 (fun c mu inu => pathSum g U c (fwRects mu (pd mu inu)))
    (fun c mu inu => pathSum g U c (bwRects mu (pd mu inu))) ?_ ?_ ?_ hr hx mu inu
  · intro r hr x hx hn mu inu
    have hne := pd_ne mu inu
    obtain ⟨p1, p2, p3, p4⟩ := plane_rules ok hne
    have hb := torus_box ok r x
    have e1 := u0 r hr x hx hn (pd mu inu) mu hne.symm
    rw [inuOf_pd] at e1
    have e2 := u0 r hr x hx hn mu (pd mu inu) hne
    have e3 := s1 r hr x hx (pd mu inu) (inuOf mu (pd mu inu))
    rw [pd_inuOf hne.symm] at e3
    unfold rectFw
    simp only [e1, e2, e3, c0 r hr x hx, c1 r hr x hx]
    unfold pathSum fwRects fwPath bwPath
    simp (maxDischargeDepth := 8) only [pathProd, List.map_cons, List.map_nil, List.sum_cons, List.sum_nil, add_zero, p1, p2, p3, p4, hb, Matrix.mul_one,
      Matrix.mul_assoc, conjTranspose_mul, conjTranspose_conjTranspose, add_assoc]
  · intro r hr x hx mu inu
    have hne := pd_ne mu inu
    obtain ⟨p1, p2, p3, p4⟩ := plane_rules ok hne
    have hb := torus_box ok r x
    have e1 := u1 r hr x hx (pd mu inu) mu hne.symm
    rw [inuOf_pd] at e1
    have e2 := u1 r hr x hx mu (pd mu inu) hne
    have e3 := (sq1_local ok ji sq jb jq r hx (pd mu inu) (bwc (inuOf mu (pd mu inu)))).trans (s1 r hr x hx (pd mu inu) (inuOf mu (pd mu inu)))
    rw [pd_inuOf hne.symm] at e3
    unfold rectFw
    simp only [e1, e2, e3, c0 r hr x hx, c1 r hr x hx]
    unfold pathSum fwRects fwPath bwPath
    simp (maxDischargeDepth := 8) only [pathProd, List.map_cons, List.map_nil, List.sum_cons, List.sum_nil, add_zero, p1, p2, p3, p4, hb, Matrix.mul_one,
      Matrix.mul_assoc, conjTranspose_mul, conjTranspose_conjTranspose, add_assoc]
  · intro r hr x hx mu inu
    have hne := pd_ne mu inu
    obtain ⟨p1, p2, p3, p4⟩ := plane_rules ok hne
    have hb := torus_box ok r x
    have e2 := u1 r hr x hx mu (pd mu inu) hne
    have e3 := (sq1_local ok ji sq jb jq r hx (pd mu inu) (bwc (inuOf mu (pd mu inu)))).trans (s1 r hr x hx (pd mu inu) (inuOf mu (pd mu inu)))
    rw [pd_inuOf hne.symm] at e3
    have e4 := (sq1_local ok ji sq jb jq r hx mu (bwc inu)).trans (s1 r hr x hx mu inu)
    unfold rectBw
    simp only [e2, e3, e4, c0 r hr x hx, c1 r hr x hx]
    unfold pathSum bwRects fwPath bwPath
    simp (maxDischargeDepth := 8) only [pathProd, List.map_cons, List.map_nil, List.sum_cons, List.sum_nil, add_zero, p1, p2, p3, p4, hb, Matrix.mul_one,
      Matrix.mul_assoc, conjTranspose_mul, conjTranspose_conjTranspose, add_assoc]

end
end Nissa.Stap

namespace Nissa.Stap
open Nissa.Lx Nissa.Sten Nissa.Gauge Nissa.Paths Nissa.Su3f Nissa.LSm
open Matrix

section
variable {g : Geo} (ok : g.Ok)
include ok

/-- C49: for any lattice, grid of ranks, configuration, initial content of the halo, of the buffers and of the result, and any order
of visit of the sites, the overlapped computation leaves on each local site, for each link `mu` and each direction `nu`
orthogonal to it, the ordered product of the links along the path `+nu +mu -nu` in the forward component and along the path
`-nu +mu +nu` in the backward one, of the global configuration: no link is read from the halo before being received, no staple
is overwritten, each backward staple computed by another rank ends in its place. -/
theorem C49_squared_staples (ji : Nat) (sched : Nat → Dir → Fin 3 → List Nat → List Nat) (hsc : SchedOk sched) (jc jb : Coords → Nat → Quad)
    (jb' : Coords → Nat × Dir → M3) (jq : Quad) (U : Nat → Nat → Quad) (out0 : Coords → Stap) {rk : Nat} (hrk : rk < g.nranks) {ivol : Nat}
    (hi : ivol < g.locVol) {c : Coords} (hc : glbCoordOfLoclx g (coordOfLx rk g.R) ivol = some c) {mu nu : Dir} (hne : nu ≠ mu) :
    let out := compute_squared_staples_lx_conf g ji sched jc jb jb' jq U out0 (coordOfLx rk g.R)
    out (ivol, mu, fwc (inuOf nu mu)) = pathProd g (glob g U) c [(nu, true), (mu, true), (nu, false)] ∧
    out (ivol, mu, bwc (inuOf nu mu)) = pathProd g (glob g U) c [(nu, false), (mu, true), (nu, true)] := by
  have hr := isRank_coord ok hrk
  obtain ⟨x, hx, rfl⟩ := idx_surj_loc ok hi
  rw [glbCoord_table ok _ (ext_inside hx) (by rw [nOut_inside hx]; omega)] at hc
  cases hc
  have := sq_spec ok ji hsc jc jb jb' jq U out0 hr hx mu (inuOf nu mu)
  rw [pd_inuOf hne] at this
  exact this

/-- C49: the rectangular staples, computed from the memory left by the squared ones (where the forward halo of the configuration
has been received but that of the staples has not): sum of the three paths closing a rectangle with the link on each side. -/
theorem C49_rectangular_staples (ji : Nat) (sched sched' : Nat → Dir → Fin 3 → List Nat → List Nat) (hsc : SchedOk sched)
    (hsc' : SchedOk sched') (jc jb : Coords → Nat → Quad) (jb1 jb2 jb3 : Coords → Nat × Dir → M3) (jq jq' : Quad) (U : Nat → Nat → Quad)
    (out0 out0' : Coords → Stap) {rk : Nat} (hrk : rk < g.nranks) {ivol : Nat}
    (hi : ivol < g.locVol) {c : Coords} (hc : glbCoordOfLoclx g (coordOfLx rk g.R) ivol = some c) {mu nu : Dir} (hne : nu ≠ mu) :
    let out := compute_rectangular_staples_lx_conf g ji sched' (confMem1 g ji U jc jb jq)
      (compute_squared_staples_lx_conf g ji sched jc jb jb1 jq U out0) jb2 jb3 jq' out0' (coordOfLx rk g.R)
    out (ivol, mu, fwc (inuOf nu mu)) =
      pathProd g (glob g U) c [(mu, false), (nu, true), (mu, true), (mu, true), (nu, false)] +
      (pathProd g (glob g U) c [(nu, true), (nu, true), (mu, true), (nu, false), (nu, false)] +
      pathProd g (glob g U) c [(nu, true), (mu, true), (mu, true), (nu, false), (mu, false)]) ∧
    out (ivol, mu, bwc (inuOf nu mu)) =
      pathProd g (glob g U) c [(mu, false), (nu, false), (mu, true), (mu, true), (nu, true)] +
      (pathProd g (glob g U) c [(nu, false), (nu, false), (mu, true), (nu, true), (nu, true)] +
      pathProd g (glob g U) c [(nu, false), (mu, true), (mu, true), (nu, true), (mu, false)]) := by
  have hr := isRank_coord ok hrk
  obtain ⟨x, hx, rfl⟩ := idx_surj_loc ok hi
  rw [glbCoord_table ok _ (ext_inside hx) (by rw [nOut_inside hx]; omega)] at hc
  cases hc
  have := rect_spec ok ji hsc' (glob g U) (confMem1 g ji U jc jb jq) (compute_squared_staples_lx_conf g ji sched jc jb jb1 jq U out0) jb2 jb3
    jq' out0' (fun r hr x hx => conf1_local ok ji U jc jb jq hr hx) (fun r hr x hx mu => conf1_up ok ji U jc jb jq hr hx mu)
    (fun r hr x hx mu inu => (sq_spec ok ji hsc jc jb jb1 jq U out0 hr hx mu inu).1)
    (fun r hr x hx mu inu => (sq_spec ok ji hsc jc jb jb1 jq U out0 hr hx mu inu).2) hr hx mu (inuOf nu mu)
  rw [pd_inuOf hne] at this
  unfold pathSum fwRects bwRects at this
  simpa only [List.map_cons, List.map_nil, List.sum_cons, List.sum_nil, add_zero] using this

omit ok in
theorem summed_eq (s : Stap) (ivol : Nat) (mu : Dir) (f : Dir → M3) (h : ∀ nu, nu ≠ mu → s (ivol, mu, fwc (inuOf nu mu)) + s (ivol, mu, bwc (inuOf nu mu)) = f nu) :
    summed s ivol mu = ∑ nu ∈ Finset.univ.filter (· ≠ mu), f nu := by
  have e : summed s ivol mu = (s (ivol, mu, fwc 0) + s (ivol, mu, bwc 0)) + (s (ivol, mu, fwc 1) + s (ivol, mu, bwc 1)) +
      (s (ivol, mu, fwc 2) + s (ivol, mu, bwc 2)) := by
    show s (ivol, mu, 0) + s (ivol, mu, 1) + s (ivol, mu, 2) + s (ivol, mu, 3) + s (ivol, mu, 4) + s (ivol, mu, 5) =
      (s (ivol, mu, 3) + s (ivol, mu, 0)) + (s (ivol, mu, 4) + s (ivol, mu, 1)) + (s (ivol, mu, 5) + s (ivol, mu, 2))
    abel
  have hf : ∀ i : Fin 3, s (ivol, mu, fwc i) + s (ivol, mu, bwc i) = f (pd mu i) := fun i => by
    have := h (pd mu i) (pd_ne mu i)
    rwa [inuOf_pd] at this
  rw [e, hf, hf, hf, Finset.sum_filter, Fin.sum_univ_four]
  clear h hf e
  fin_cases mu <;> simp [pd, Geo.perpDirs, add_assoc]

/-- C49: the summed squared staples are the sum of the six paths, as computed with full halo and edges by the other routines. -/
theorem C49_summed_squared (ji : Nat) (sched : Nat → Dir → Fin 3 → List Nat → List Nat) (hsc : SchedOk sched) (jc jb : Coords → Nat → Quad)
    (jb' : Coords → Nat × Dir → M3) (jq : Quad) (U : Nat → Nat → Quad) (out0 : Coords → Stap) {rk : Nat} (hrk : rk < g.nranks) {ivol : Nat}
    (hi : ivol < g.locVol) {c : Coords} (hc : glbCoordOfLoclx g (coordOfLx rk g.R) ivol = some c) (mu : Dir) :
    summed (compute_squared_staples_lx_conf g ji sched jc jb jb' jq U out0 (coordOfLx rk g.R)) ivol mu =
      stapleSum g (glob g U) Finset.univ c mu := by
  refine summed_eq _ _ _ _ (fun nu hne => ?_)
  have := C49_squared_staples ok ji sched hsc jc jb jb' jq U out0 hrk hi hc hne
  rw [this.1, this.2]; rfl

/-- Specification: sum of the paths closing a rectangle with the link `mu` starting from `x` -/
def rectSum (g : Geo) (U : Coords → Quad) (x : Coords) (mu : Dir) : M3 :=
  ∑ nu ∈ Finset.univ.filter (· ≠ mu), (pathSum g U x (fwRects mu nu) + pathSum g U x (bwRects mu nu))

theorem C49_summed_rectangular (ji : Nat) (sched sched' : Nat → Dir → Fin 3 → List Nat → List Nat) (hsc : SchedOk sched)
    (hsc' : SchedOk sched') (jc jb : Coords → Nat → Quad) (jb1 jb2 jb3 : Coords → Nat × Dir → M3) (jq jq' : Quad) (U : Nat → Nat → Quad)
    (out0 out0' : Coords → Stap) {rk : Nat} (hrk : rk < g.nranks) {ivol : Nat}
    (hi : ivol < g.locVol) {c : Coords} (hc : glbCoordOfLoclx g (coordOfLx rk g.R) ivol = some c) (mu : Dir) :
    summed (compute_rectangular_staples_lx_conf g ji sched' (confMem1 g ji U jc jb jq)
      (compute_squared_staples_lx_conf g ji sched jc jb jb1 jq U out0) jb2 jb3 jq' out0' (coordOfLx rk g.R)) ivol mu =
      rectSum g (glob g U) c mu := by
  refine summed_eq _ _ _ _ (fun nu hne => ?_)
  have := C49_rectangular_staples ok ji sched sched' hsc hsc' jc jb jb1 jb2 jb3 jq jq' U out0 out0' hrk hi hc hne
  rw [this.1, this.2]
  unfold pathSum fwRects bwRects
  simp only [List.map_cons, List.map_nil, List.sum_cons, List.sum_nil, add_zero]

/-- number of the local sites whose coordinates satisfy a condition in each direction -/
theorem count_sites (P : Dir → Int → Bool) :
    ((List.range g.locVol).filter (fun i => dirs.all fun mu => P mu ((locCoordOfLoclx g i).getD (fun _ => 0) mu))).length =
      ∏ mu : Dir, ((Finset.range (g.loc mu)).filter (fun c : Nat => P mu (c : Int) = true)).card := by
  rw [← Fintype.card_piFinset, ← List.toFinset_card_of_nodup (List.Nodup.filter _ List.nodup_range)]
  have key : ∀ x : ICoords, (∀ nu, Inside g x nu) → ((dirs.all fun mu => P mu ((locCoordOfLoclx g (idx g x)).getD (fun _ => 0) mu)) = true ↔ ∀ mu, P mu (x mu) = true) := by
    intro x hx
    rw [locCoord_table ok hx, List.all_eq_true]
    exact ⟨fun h mu => h mu (mem_dirs' mu), fun h mu _ => h mu⟩
  refine Finset.card_bij' (fun i _ => coordOfLx i g.loc) (fun c _ => lxOfCoord c g.loc) ?_ ?_ ?_ ?_
  · intro i hi
    rw [List.mem_toFinset, List.mem_filter, List.mem_range] at hi
    obtain ⟨x, hx, rfl⟩ := idx_surj_loc ok hi.1
    have hP := (key x hx).1 hi.2
    rw [Fintype.mem_piFinset]
    have e : coordOfLx (idx g x) g.loc = nat x := by
      rw [idx_loc ok hx]
      exact coordOfLx_lxOfCoord (fun d => by have := hx d; unfold Inside at this; unfold nat; omega)
    intro mu
    simp only [e]
    rw [Finset.mem_filter, Finset.mem_range]
    have h := hx mu
    unfold Inside at h
    have : ((nat x mu : Nat) : Int) = x mu := by unfold nat; omega
    exact ⟨by omega, by rw [this]; exact hP mu⟩
  · intro c hc
    rw [Fintype.mem_piFinset] at hc
    have hc1 : ∀ mu, c mu < g.loc mu := fun mu => Finset.mem_range.1 (Finset.mem_filter.1 (hc mu)).1
    have hx : ∀ mu, Inside g (fun mu => (c mu : Int)) mu := fun mu => by have := hc1 mu; unfold Inside; simp only; omega
    have e : idx g (fun mu => (c mu : Int)) = lxOfCoord c g.loc := by
      rw [idx_loc ok hx]; rfl
    rw [List.mem_toFinset, List.mem_filter, List.mem_range]
    show lxOfCoord c g.loc < g.locVol ∧ _
    rw [← e]
    exact ⟨idx_loc_lt ok hx, (key _ hx).2 (fun mu => (Finset.mem_filter.1 (hc mu)).2)⟩
  · intro i hi
    rw [List.mem_toFinset, List.mem_filter, List.mem_range] at hi
    have := hi.1
    rw [locVol_eq ok] at this
    exact (coordOfLx_spec (fun d => loc_pos ok d) this).2
  · intro c hc
    rw [Fintype.mem_piFinset] at hc
    exact coordOfLx_lxOfCoord (fun mu => Finset.mem_range.1 (Finset.mem_filter.1 (hc mu)).1)

omit ok in
theorem len_not {p : Nat → Bool} (n : Nat) : ((List.range n).filter (fun i => !p i)).length = n - ((List.range n).filter p).length := by
  have := List.length_eq_length_filter_add (l := List.range n) p
  rw [List.length_range] at this
  omega

omit ok in
theorem foldl_prod {f' : Dir → Nat} (f : Dir → Nat) (h : ∀ mu, f' mu = f mu) : dirs.foldl (fun v mu => v * f' mu) 1 = ∏ mu : Dir, f mu := by
  rw [Fin.prod_univ_four]
  simp only [h]
  show 1 * f 0 * f 1 * f 2 * f 3 = _
  ring

/-- C49: the tables of the surface partition the local volume and have the sizes for which they are allocated, so that
`find_bulk_sites` never reports a mismatch, for any lattice and grid. -/
theorem C49_surface_tables :
    (nonFwSurf g).length = nonFwSurfVol g ∧ (fwSurf g).length = g.locVol - nonFwSurfVol g ∧
    (nonBwSurf g).length = nonFwSurfVol g ∧ (bwSurf g).length = g.locVol - nonFwSurfVol g ∧
    (bulk g).length = bulkVol g ∧ (surf g).length = g.locVol - bulkVol g := by
  have vol : ∀ k : Nat, dirs.foldl (fun v mu => if g.isPar mu then v * (g.loc mu - k) else v * g.loc mu) 1 =
      ∏ mu : Dir, (if g.isPar mu then g.loc mu - k else g.loc mu) := by
    intro k
    rw [← foldl_prod (f' := fun mu => if g.isPar mu then g.loc mu - k else g.loc mu) _ (fun _ => rfl)]
    congr 1
    funext v mu
    split <;> rfl
  have n1 : (nonFwSurf g).length = nonFwSurfVol g := by
    have := count_sites ok (fun mu c => !(g.isPar mu && (c == (g.loc mu : Int) - 1)))
    unfold nonFwSurf nonFwSurfVol
    rw [vol 1]
    refine this.trans (Finset.prod_congr rfl fun mu _ => ?_)
    have hl := loc_pos ok mu
    cases hp : g.isPar mu
    · simp
    · have : (Finset.range (g.loc mu)).filter (fun c : Nat => (!(true && (((c : Nat) : Int) == (g.loc mu : Int) - 1))) = true) = Finset.range (g.loc mu - 1) := by
        ext c; simp only [Finset.mem_filter, Finset.mem_range, Bool.true_and, Bool.not_eq_true', beq_eq_false_iff_ne]; omega
      rw [this, Finset.card_range]; rfl
  have n2 : (nonBwSurf g).length = nonFwSurfVol g := by
    have := count_sites ok (fun mu c => !(g.isPar mu && (c == 0)))
    unfold nonBwSurf nonFwSurfVol
    rw [vol 1]
    refine this.trans (Finset.prod_congr rfl fun mu _ => ?_)
    have hl := loc_pos ok mu
    cases hp : g.isPar mu
    · simp
    · have : (Finset.range (g.loc mu)).filter (fun c : Nat => (!(true && (((c : Nat) : Int) == 0))) = true) = Finset.Ico 1 (g.loc mu) := by
        ext c; simp only [Finset.mem_filter, Finset.mem_range, Finset.mem_Ico, Bool.true_and, Bool.not_eq_true', beq_eq_false_iff_ne]; omega
      rw [this, Nat.card_Ico]; rfl
  have n3 : (bulk g).length = bulkVol g := by
    have := count_sites ok (fun mu c => !(g.isPar mu && ((c == (g.loc mu : Int) - 1) || (c == 0))))
    unfold bulk bulkVol
    rw [vol 2]
    refine this.trans (Finset.prod_congr rfl fun mu _ => ?_)
    have hl := ok.loc_ge mu
    cases hp : g.isPar mu
    · simp
    · have : (Finset.range (g.loc mu)).filter (fun c : Nat => (!(true && ((((c : Nat) : Int) == (g.loc mu : Int) - 1) || (((c : Nat) : Int) == 0)))) = true) = Finset.Ico 1 (g.loc mu - 1) := by
        ext c; simp only [Finset.mem_filter, Finset.mem_range, Finset.mem_Ico, Bool.true_and, Bool.not_eq_true', Bool.or_eq_false_iff, beq_eq_false_iff_ne]; omega
      rw [this, Nat.card_Ico]
      show g.loc mu - 1 - 1 = g.loc mu - 2
      omega
  refine ⟨n1, ?_, n2, ?_, n3, ?_⟩
  · unfold fwSurf; rw [len_not]; show _ - (nonFwSurf g).length = _; rw [n1]
  · unfold bwSurf; rw [len_not]; show _ - (nonBwSurf g).length = _; rw [n2]
  · unfold surf; rw [len_not]; show _ - (bulk g).length = _; rw [n3]

end

/-- on `exGeo` (12 ranks, local volume 64) both lists are not empty; the identity is an allowed order -/
example : 0 < nonFwSurfVol exGeo ∧ nonFwSurfVol exGeo < exGeo.locVol := by decide
example : SchedOk (fun _ _ _ l => l) ∧ SchedOk (fun n _ _ l => if n = 4 then l.reverse else l) :=
  ⟨fun _ _ _ _ => List.Perm.refl _, fun n _ _ l => by beta_reduce; split; exact List.reverse_perm l; exact List.Perm.refl _⟩

end Nissa.Stap
