/- C07, C08 and the even/odd part of C05, C06. -/
import Verif.Geometry.EvenOddLemmas

set_option linter.all false
namespace Nissa.Lx
open Geo
variable {g : Geo}

section
variable (ok : g.Ok) (eo : EoOk g)
include ok eo

theorem parity_tshift (c : Coords) (mu : Dir) {d : Int} (hd : d = 1 ∨ d = -1) :
    coordParity (tshift g c mu d) = 1 - coordParity c := by
  have hL : (g.L mu : Int) % 2 = 0 := by
    rw [L_eq ok]; have := eo mu; push_cast
    rw [Int.mul_emod, show (g.loc mu : Int) % 2 = 0 by omega]; simp
  have hpos := L_pos ok mu
  have key : ∃ q : Int, (((((c mu : Int) + d) % g.L mu).toNat : Nat) : Int) = c mu + d + 2 * q := by
    have h0 := Int.emod_nonneg ((c mu : Int) + d) (b := (g.L mu : Int)) (by omega)
    refine ⟨-((g.L mu : Int) / 2) * (((c mu : Int) + d) / g.L mu), ?_⟩
    rw [Int.toNat_of_nonneg h0, Int.emod_def]
    have : (g.L mu : Int) = 2 * ((g.L mu : Int) / 2) := by omega
    generalize ((c mu : Int) + d) / g.L mu = Q
    generalize (g.L mu : Int) / 2 = H at *
    rw [this]; ring
  obtain ⟨q, hq⟩ := key
  unfold coordParity dirs tshift
  simp only [List.foldl_cons, List.foldl_nil]
  generalize (((c mu : Int) + d) % g.L mu).toNat = v at hq ⊢
  fin_cases mu <;> simp [Function.update_apply] at hq ⊢ <;> omega

omit ok in
theorem parity_of_coord (r : Coords) {l : Nat} {c : Coords} (h : glbCoordOfLoclx g r l = some c) :
    loclxParity g r l = some (coordParity c) := by unfold loclxParity; rw [h]; rfl

/-- value of the e/o neighbour tables -/
theorem loceoNeigh_eq (r : Coords) {p e l : Nat} {d : Int} {mu : Dir} {j : Nat} (hl : l < allVol g) (hp : loclxParity g r l = some p) (he : l / 2 = e)
    (hj : loclxNeigh g r d l mu = some (j : Int)) (hj' : j < allVol g) : loceoNeigh g r d p mu e = some (j / 2) := by
  unfold loceoNeigh
  rw [(writeLoop_spec _ _ _ _ _).1 (some (j / 2)) ⟨l, List.mem_range.2 hl, ?_⟩ ?_]
  · rfl
  · rw [hj]
    simp only [Option.bind_some]
    rw [if_pos ⟨by omega, by omega, hp⟩, loceo_eq ok eo r hl, he]
  · intro l' hl' hk
    cases hn : loclxNeigh g r d l' mu with
    | none => rw [hn] at hk; simp at hk
    | some j' =>
      rw [hn] at hk
      simp only [Option.bind_some] at hk ⊢
      split at hk
      · rename_i hc
        rw [loceo_eq ok eo r (List.mem_range.1 hl')] at hk
        have := eo_inj ok eo r (List.mem_range.1 hl') hl hc.2.2 hp (by rw [he]; exact Option.some.inj hk)
        subst this
        rw [hn] at hj; cases hj
        rw [Int.toNat_natCast]
        exact loceo_eq ok eo r hj'
      · simp at hk

end

/-- C07: the labels. Every site known to a rank has a parity (that of its global coordinates) and a half-index, from which the site
is recovered; the local sites are exactly those with half-index below locVol/2, then come the border and the edges. -/
theorem C07_eo_of_lx (g : Geo) (ok : g.Ok) (eo : EoOk g) (r : Coords) (l : Nat) (hl : l < g.locVol + g.bordVol + g.edgeVol) :
    ∃ c p e, glbCoordOfLoclx g r l = some c ∧ p = (c 0 + c 1 + c 2 + c 3) % 2 ∧ loclxParity g r l = some p ∧
      loceoOfLoclx g r l = some e ∧ loclxOfLoceo g r p e = some l ∧
      (l < g.locVol ↔ e < g.locVol / 2) ∧ (l < g.locVol + g.bordVol ↔ e < (g.locVol + g.bordVol) / 2) ∧
      e < (g.locVol + g.bordVol + g.edgeVol) / 2 := by
  obtain ⟨p, hp, hpar⟩ := parity_def ok eo r hl
  have h1 := even_locVol ok eo
  have h2 : g.bordVol = 2 * g.bordVolh := rfl
  have h3 : g.edgeVol = 4 * edgeVolq g := rfl
  have h4 := hpar
  unfold loclxParity at h4
  rw [Option.map_eq_some_iff] at h4
  obtain ⟨c, hc, hcp⟩ := h4
  refine ⟨c, p, l / 2, hc, ?_, hpar, loceo_eq ok eo r hl, loclx_eq ok eo r hl hpar, by omega, by omega, by omega⟩
  rw [← hcp]
  unfold coordParity dirs
  simp

/-- C07: conversely, every (parity, half-index) pair is the label of exactly one site, which has that parity and half-index; half
of the local sites have each parity. -/
theorem C07_lx_of_eo (g : Geo) (ok : g.Ok) (eo : EoOk g) (r : Coords) (p e : Nat) (hp : p < 2)
    (he : e < (g.locVol + g.bordVol + g.edgeVol) / 2) :
    ∃ l, loclxOfLoceo g r p e = some l ∧ l < g.locVol + g.bordVol + g.edgeVol ∧ loclxParity g r l = some p ∧
      loceoOfLoclx g r l = some e ∧ (e < g.locVol / 2 → l < g.locVol) := by
  obtain ⟨l, h1, h2, h3, h4⟩ := site_of ok eo r hp he
  have h5 := even_locVol ok eo
  exact ⟨l, h4, h1, h2, by rw [loceo_eq ok eo r h1, h3], by omega⟩

/-- C07: from a local site of parity `p` and half-index `e`, the tabulated neighbour `e'` along any direction, looked up in the
opposite parity, is the neighbour of the lexicographic tables and its global coordinates are moved by one on the torus. -/
theorem C07_neighbours (g : Geo) (ok : g.Ok) (eo : EoOk g) (r : Coords) (p e : Nat) (hp : p < 2) (he : e < g.locVol / 2)
    (mu : Dir) (d : Int) (hd : d = 1 ∨ d = -1) :
    ∃ e' l l' c, loceoNeigh g r d p mu e = some e' ∧ loclxOfLoceo g r p e = some l ∧ loclxOfLoceo g r (1 - p) e' = some l' ∧
      loclxNeigh g r d l mu = some (l' : Int) ∧ glbCoordOfLoclx g r l = some c ∧
      glbCoordOfLoclx g r l' = some (tshift g c mu d) := by
  obtain ⟨l, h1, h2, h3, h4⟩ := site_of ok eo r (p := p) (e := e) hp (by unfold allVol; omega)
  have hev := even_locVol ok eo
  have hl : l < g.locVol := by omega
  obtain ⟨j, c, a1, a2, _, a4, a5⟩ := C03_neighbours_of_local g ok r l hl mu d hd
  have hj : j < allVol g := by unfold allVol; omega
  have hpc : p = coordParity c := by
    have := parity_of_coord eo r a4; rw [h2] at this; exact Option.some.inj this
  have hpj : loclxParity g r j = some (1 - p) := by
    rw [parity_of_coord eo r a5, parity_tshift ok eo c mu hd, hpc]
  exact ⟨j / 2, l, j, c, loceoNeigh_eq ok eo r h1 h2 h3 a1 hj, h4, loclx_eq ok eo r hj hpj, a1, a4, a5⟩

/-- C07: the same from a border site, whenever the lexicographic tables know the neighbour -/
theorem C07_neighbours_of_border (g : Geo) (ok : g.Ok) (eo : EoOk g) (r : Coords) (i : Nat) (hi : i < g.bordVol)
    (mu : Dir) (d : Int) (hd : d = 1 ∨ d = -1) (j : Nat) (hj : loclxNeigh g r d (g.locVol + i) mu = some (j : Int)) :
    ∃ p e e', loclxOfLoceo g r p e = some (g.locVol + i) ∧ loceoNeigh g r d p mu e = some e' ∧ loclxOfLoceo g r (1 - p) e' = some j := by
  obtain ⟨j', c, a1, a2, a3⟩ := C03_neighbours_of_border g ok r i hi mu d hd
  rw [hj] at a1; cases a1
  rcases a3 with h | ⟨_, h2, h3⟩
  · omega
  have hl : g.locVol + i < allVol g := by unfold allVol; omega
  have hj' : j < allVol g := by unfold allVol; omega
  rw [Int.toNat_natCast] at h3
  have hp := parity_of_coord eo r a2
  have hpj : loclxParity g r j = some (1 - coordParity c) := by
    rw [parity_of_coord eo r h3, parity_tshift ok eo c mu hd]
  exact ⟨coordParity c, (g.locVol + i) / 2, j / 2, loclx_eq ok eo r hl hp, loceoNeigh_eq ok eo r hl hp rfl hj hj', loclx_eq ok eo r hj' hpj⟩

/-! ### C08 -/

theorem splitEo_spec {V : Type} (ok : g.Ok) (eo : EoOk g) (r : Coords) (lx : Nat → V) {l p : Nat} (hl : l < g.locVol)
    (hp : loclxParity g r l = some p) : splitEo g r lx p (l / 2) = some (lx l) := by
  have hl' : l < allVol g := by unfold allVol; omega
  unfold splitEo
  refine (writeLoop_spec _ _ _ _ _).1 _ ⟨l, List.mem_range.2 hl, ?_⟩ ?_
  · rw [if_pos hp, loceo_eq ok eo r hl']
  · intro l2 h2 hk
    have h2 := List.mem_range.1 h2
    have h2' : l2 < allVol g := by unfold allVol; omega
    split at hk
    · rename_i hc
      rw [loceo_eq ok eo r h2'] at hk
      rw [eo_inj ok eo r h2' hl' hc hp (Option.some.inj hk)]
    · simp at hk

theorem pasteEo_spec {V : Type} (ok : g.Ok) (eo : EoOk g) (r : Coords) (f : Nat → Nat → V) {l p : Nat} (hl : l < g.locVol)
    (hp : loclxParity g r l = some p) : pasteEo g r f l = some (f p (l / 2)) := by
  have hl' : l < allVol g := by unfold allVol; omega
  have hev := even_locVol ok eo
  have hp2 : p < 2 := by
    obtain ⟨q, hq, h⟩ := parity_def ok eo r hl'; rw [hp] at h; cases h; exact hq
  unfold pasteEo
  refine (writeLoop_spec _ _ _ _ _).1 _ ⟨(p, l / 2), ?_, ?_⟩ ?_
  · rw [List.mem_flatMap]
    refine ⟨p, ?_, List.mem_map.2 ⟨l / 2, List.mem_range.2 (by unfold locVolh; omega), rfl⟩⟩
    have : p = 0 ∨ p = 1 := by omega
    rcases this with rfl | rfl <;> simp
  · exact loclx_eq ok eo r hl' hp
  · rintro ⟨q, e⟩ hm hk
    rw [List.mem_flatMap] at hm
    obtain ⟨q', hq', hm⟩ := hm
    obtain ⟨e', he', heq⟩ := List.mem_map.1 hm
    cases heq
    have hq2 : q < 2 := by simp at hq'; omega
    obtain ⟨l2, b1, b2, b3, b4⟩ := site_of ok eo r (p := q) (e := e) hq2 (by have := List.mem_range.1 he'; unfold locVolh at this; unfold allVol; omega)
    simp only at hk
    rw [b4] at hk; cases hk
    rw [hp] at b2; cases b2
    rw [← b3]

/-- C08: splitting any full field writes every site of both parts, and pasting the two parts gives back the field -/
theorem C08_paste_split {V : Type} (g : Geo) (ok : g.Ok) (eo : EoOk g) (r : Coords) (lx : Nat → V) :
    ∃ f : Nat → Nat → V, (∀ p e, p < 2 → e < g.locVol / 2 → splitEo g r lx p e = some (f p e)) ∧
      ∀ l, l < g.locVol → pasteEo g r f l = some (lx l) := by
  have hev := even_locVol ok eo
  refine ⟨fun p e => lx ((loclxOfLoceo g r p e).getD 0), fun p e hp he => ?_, fun l hl => ?_⟩
  · obtain ⟨l, b1, b2, b3, b4⟩ := site_of ok eo r (p := p) (e := e) hp (by unfold allVol; omega)
    beta_reduce
    rw [b4, ← b3]
    exact splitEo_spec ok eo r lx (by omega) b2
  · obtain ⟨p, hp, hpar⟩ := parity_def ok eo r (l := l) (by unfold allVol; omega)
    rw [pasteEo_spec ok eo r _ hl hpar]
    rw [loclx_eq ok eo r (by unfold allVol; omega) hpar]; rfl

/-- C08: pasting any two parts writes every site, and splitting gives back the parts -/
theorem C08_split_paste {V : Type} (g : Geo) (ok : g.Ok) (eo : EoOk g) (r : Coords) (f : Nat → Nat → V) :
    ∃ lx : Nat → V, (∀ l, l < g.locVol → pasteEo g r f l = some (lx l)) ∧
      ∀ p e, p < 2 → e < g.locVol / 2 → splitEo g r lx p e = some (f p e) := by
  have hev := even_locVol ok eo
  refine ⟨fun l => f ((loclxParity g r l).getD 0) (l / 2), fun l hl => ?_, fun p e hp he => ?_⟩
  · obtain ⟨p, hp, hpar⟩ := parity_def ok eo r (l := l) (by unfold allVol; omega)
    rw [pasteEo_spec ok eo r _ hl hpar]
    beta_reduce
    rw [hpar]; rfl
  · obtain ⟨l, b1, b2, b3, b4⟩ := site_of ok eo r (p := p) (e := e) hp (by unfold allVol; omega)
    have := splitEo_spec ok eo r (fun l => f ((loclxParity g r l).getD 0) (l / 2)) (l := l) (p := p) (by omega) b2
    rw [b3, b2] at this
    exact this

/-- C08: extracting one parity agrees with the split -/
theorem C08_get_part {V : Type} (g : Geo) (ok : g.Ok) (eo : EoOk g) (r : Coords) (lx : Nat → V) (p e : Nat) (hp : p < 2)
    (he : e < g.locVol / 2) : getEoPart g r lx p e = splitEo g r lx p e := by
  have hev := even_locVol ok eo
  obtain ⟨l, b1, b2, b3, b4⟩ := site_of ok eo r (p := p) (e := e) hp (by unfold allVol; omega)
  unfold getEoPart
  rw [if_pos (by unfold locVolh; omega), b4, ← b3, splitEo_spec ok eo r lx (by omega) b2]; rfl

/-- geometry of 8x4x4x12 on 2x1x2x3 ranks meets the hypotheses -/
def exEo : Geo := ⟨![8, 4, 4, 12], ![2, 1, 2, 3]⟩
example : exEo.Ok ∧ EoOk exEo ∧ exEo.locVol = 128 ∧ exEo.bordVol > 0 ∧ exEo.edgeVol > 0 := by decide

/-! ### exchange of one-parity fields -/

section
variable (ok : g.Ok) (eo : EoOk g)
include ok eo

theorem sumZ_pull {x : ICoords} {mu : Dir} (h : Out g x mu) : sumZ (pull g x mu) % 2 = (sumZ x + 1) % 2 := by
  have := shift_pull ok h
  have h2 := congrArg sumZ this
  rw [sumZ_shift] at h2
  split at h2 <;> omega

theorem sumZ_flip {x : ICoords} {mu : Dir} (h : Out g x mu) : sumZ (flip g x mu) % 2 = (sumZ x + 1) % 2 := by
  have e := eo mu
  have key : flip g x mu mu = x mu + (flip g x mu mu - x mu) := by ring
  have hs : flip g x mu = shift x mu (flip g x mu mu - x mu) := by
    funext nu
    unfold shift
    by_cases hn : nu = mu
    · subst hn; rw [Function.update_self]; ring
    · rw [Function.update_of_ne hn, flip_ne hn]
  rw [hs, sumZ_shift]
  have : (flip g x mu mu - x mu) % 2 = 1 := by
    unfold flip; rw [Function.update_self]
    rcases h.2 with h | h
    · rw [if_pos h]; omega
    · have := loc_pos ok mu
      rw [if_neg (by omega)]; omega
  omega

theorem half_sub {n : Nat} (h : g.locVol ≤ n) : (n - g.locVol) / 2 = n / 2 - locVolh g := by
  have := even_locVol ok eo; unfold locVolh; omega

/-- which surface site is sent in a slot -/
theorem surfeo_eq (r : Coords) {x : ICoords} {mu : Dir} (h : OneOut g x mu) {p : Nat} (hp : (sumZ x + 1) % 2 = (p : Int)) :
    surfeoOfBordeo g r p ((idx g x - g.locVol) / 2) = some (idx g (pull g x mu) / 2) := by
  have hrg := idx_bord_range ok h
  have hall : idx g x < allVol g := by unfold allVol; omega
  have hpi := pull_inside ok h
  have hpl := idx_loc_lt ok hpi
  have hpall : idx g (pull g x mu) < allVol g := by unfold allVol; omega
  have key : ∀ {y : ICoords} {nu : Dir}, OneOut g y nu → loclxParity g r (idx g (pull g y nu)) = some ((sumZ y + 1) % 2).toNat := by
    intro y nu hy
    have hpi := pull_inside ok hy
    rw [parity_idx ok eo r (ext_inside hpi) (by rw [nOut_inside hpi]; omega), sumZ_pull ok eo hy.1]
  unfold surfeoOfBordeo
  rw [(writeLoop_spec _ _ _ _ _).1 (some (idx g (pull g x mu) / 2)) ⟨idx g x - g.locVol, List.mem_range.2 (by omega), ?_⟩ ?_]
  · rfl
  · rw [surf_of_bord ok r h]
    simp only [Option.bind_some]
    rw [key h, if_pos (by rw [hp]; rfl), show idx g x - g.locVol + g.locVol = idx g x by omega, loceo_eq ok eo r hall, half_sub ok eo hrg.1]
    rfl
  · intro b hb hk
    obtain ⟨y, nu, hy, hyb⟩ := idx_surj_bord ok (List.mem_range.1 hb)
    have hys := surf_of_bord ok r hy
    rw [hyb, Nat.add_sub_cancel_left] at hys
    rw [hys] at hk ⊢
    simp only [Option.bind_some] at hk ⊢
    rw [key hy] at hk
    split at hk
    · rename_i hc
      have hyall : idx g y < allVol g := by unfold allVol; have := idx_bord_range ok hy; omega
      rw [show b + g.locVol = idx g y by omega, loceo_eq ok eo r hyall] at hk
      simp only [Option.map_some, Option.some.injEq] at hk
      have hyr := (idx_bord_range ok hy).1
      have hsame : idx g y = idx g x := by
        refine eo_inj ok eo r (p := (sumZ x % 2).toNat) hyall hall ?_ ?_ ?_
        · rw [parity_idx ok eo r (ext_oneOut hy) (by rw [nOut_oneOut hy]; omega)]
          have := Option.some.inj hc; congr 1; omega
        · exact parity_idx ok eo r (ext_oneOut h) (by rw [nOut_oneOut h]; omega)
        · have := half_sub ok eo hrg.1; have h2 := half_sub ok eo hyr
          have h5 := even_locVol ok eo
          unfold locVolh at *; omega
      have hxy := idx_inj ok (ext_oneOut hy) (by rw [nOut_oneOut hy]; omega) (ext_oneOut h) (by rw [nOut_oneOut h]; omega) hsame
      subst hxy
      have hmn : nu = mu := by
        by_contra hne
        exact hy.1.not_inside (h.2 nu hne)
      subst hmn
      exact loceo_eq ok eo r hpall
    · simp at hk

theorem eo_slot {x : ICoords} {mu : Dir} (h : OneOut g x mu) :
    (idx g x - g.locVol) / 2 = haloOff g 2 mu (oriF g x mu) + bordSub g x mu / 2 ∧ bordSub g x mu / 2 < haloLen g 2 mu := by
  have h1 := idx_bord_off ok h
  have h2 := haloOff_mul (dcOk2 ok eo) mu (oriF g x mu)
  have h3 := haloLen_mul (dcOk2 ok eo) mu
  have h4 := bordSub_lt ok h
  omega

theorem coordOfRank {r : Coords} (hr : IsRank g r) : coordOfLx (lxOfCoord r g.R) g.R = r := coordOfLx_lxOfCoord hr

end

/-- C05 for a field defined on the sites of parity `p` only: after `updateHalo` the halo site with half-index `locVol/2+i`
holds the value stored by the rank owning that global site, at the half-index that rank gives to the site (which has the same parity). -/
theorem C05_eo_halo_update {V : Type} (g : Geo) (ok : g.Ok) (eo : EoOk g) (p : Nat) (hp : p < 2) (F : Nat → Nat → V) (r : Coords)
    (hr : IsRank g r) :
    ∃ buf, eoHaloAfterUpdate g p F r = some buf ∧
      ∀ i, i < g.bordVol / 2 → ∃ l c rk ll e, loclxOfLoceo g r p (g.locVol / 2 + i) = some l ∧ glbCoordOfLoclx g r l = some c ∧
        getLoclxAndRankOfCoords g c = (rk, ll) ∧ loclxParity g (coordOfLx rk g.R) ll = some p ∧
        loceoOfLoclx g (coordOfLx rk g.R) ll = some e ∧ buf i = some (F rk e) := by
  obtain ⟨buf, hb, hs⟩ := haloRecvBuf_spec ok (dcOk2 ok eo) (fun _ _ => true) (fun r i => (surfeoOfBordeo g r p i).map (F (lxOfCoord r g.R))) hr
  refine ⟨buf, hb, fun i hi => ?_⟩
  have hev := even_locVol ok eo
  obtain ⟨l, b1, b2, b3, b4⟩ := site_of ok eo r (p := p) (e := g.locVol / 2 + i) hp (by unfold allVol; omega)
  obtain ⟨x, mu, hx, he⟩ := idx_surj_bord ok (i := l - g.locVol) (by omega)
  replace he : idx g x = l := by omega
  have hpar := parity_idx ok eo r (ext_oneOut hx) (by rw [nOut_oneOut hx]; omega)
  rw [he, b2] at hpar
  have hpar := Option.some.inj hpar
  have hx' := flip_oneOut ok hx
  have hr' := rankNeigh_isRank ok hr (oriF g x mu) mu
  have hpi := pull_inside ok hx'
  have hpl := idx_loc_lt ok hpi
  obtain ⟨s1, s2⟩ := eo_slot ok eo hx
  obtain ⟨s3, s4⟩ := eo_slot ok eo hx'
  refine ⟨l, torus g r x, lxOfCoord (rankNeigh g r (oriF g x mu) mu) g.R, idx g (pull g (flip g x mu) mu),
    idx g (pull g (flip g x mu) mu) / 2, b4, ?_, ?_, ?_, ?_, ?_⟩
  · rw [← he]; exact glbCoord_table ok r (ext_oneOut hx) (by rw [nOut_oneOut hx]; omega)
  · rw [← torus_flip ok hr hx]; exact owner_torus ok hr' hpi
  · rw [coordOfRank ok eo hr', parity_idx ok eo _ (ext_inside hpi) (by rw [nOut_inside hpi]; omega)]
    have a := sumZ_pull ok eo hx'.1
    have b := sumZ_flip ok eo hx.1
    congr 1; omega
  · rw [coordOfRank ok eo hr']; exact loceo_eq ok eo _ (by unfold allVol; omega)
  · have hi' : i = haloOff g 2 mu (oriF g x mu) + bordSub g x mu / 2 := by rw [← s1]; omega
    rw [hi', hs mu _ _ hx.1.1 s2, if_pos rfl]
    rw [oriF_flip ok hx, bordSub_flip] at s3
    rw [← s3, surfeo_eq ok eo _ hx' (p := p)]
    · rfl
    · have b := sumZ_flip ok eo hx.1; omega

section
variable (ok : g.Ok) (eo : EoOk g)
include ok eo

theorem sumZ_congr2 {x y : ICoords} {mu : Dir} (h : ∀ nu, nu ≠ mu → x nu = y nu) : sumZ x - x mu = sumZ y - y mu := by
  unfold sumZ
  fin_cases mu
  · have a := h 1 (by decide); have b := h 2 (by decide); have c := h 3 (by decide); simp; omega
  · have a := h 0 (by decide); have b := h 2 (by decide); have c := h 3 (by decide); simp; omega
  · have a := h 0 (by decide); have b := h 1 (by decide); have c := h 3 (by decide); simp; omega
  · have a := h 0 (by decide); have b := h 1 (by decide); have c := h 2 (by decide); simp; omega

theorem sumZ_pull2 {x : ICoords} {e : Edge} (h : TwoOut g x e) : sumZ (pull2 g x e) % 2 = sumZ x % 2 := by
  have a := sumZ_pull ok eo h.1
  have b := sumZ_pull ok eo (pull_twoOut ok h).1
  unfold pull2; omega

theorem sumZ_flip2 {x : ICoords} {e : Edge} (h : TwoOut g x e) : sumZ (flip2 g x e) % 2 = sumZ x % 2 := by
  have a := sumZ_flip ok eo h.1
  have : Out g (flip g x (edgeDirs e).1) (edgeDirs e).2 := ⟨h.2.1.1, by rw [flip_ne (edge_ne e).symm]; exact h.2.1.2⟩
  have b := sumZ_flip ok eo this
  unfold flip2; omega

theorem surfeo_edge_eq (r : Coords) {x : ICoords} {e : Edge} (h : TwoOut g x e) {p : Nat} (hp : sumZ x % 2 = (p : Int)) :
    surfeoOfEdgeo g r p ((idx g x - g.locVol - g.bordVol) / 2) = some (idx g (pull2 g x e) / 2) := by
  have hrg := idx_edge_range ok h
  have h5 := even_locVol ok eo
  have h6 : g.bordVol = 2 * g.bordVolh := rfl
  have hall : idx g x < allVol g := by unfold allVol; omega
  have hpi := pull2_inside ok h
  have hpl := idx_loc_lt ok hpi
  have hpall : idx g (pull2 g x e) < allVol g := by unfold allVol; omega
  have key : ∀ {y : ICoords} {f : Edge}, TwoOut g y f → loclxParity g r (idx g (pull2 g y f)) = some (sumZ y % 2).toNat := by
    intro y nu hy
    have hpi := pull2_inside ok hy
    rw [parity_idx ok eo r (ext_inside hpi) (by rw [nOut_inside hpi]; omega), sumZ_pull2 ok eo hy]
  unfold surfeoOfEdgeo
  rw [(writeLoop_spec _ _ _ _ _).1 (some (idx g (pull2 g x e) / 2)) ⟨idx g x - g.locVol - g.bordVol, List.mem_range.2 (by omega), ?_⟩ ?_]
  · rfl
  · rw [surf_of_edge ok r h]
    simp only [Option.bind_some]
    rw [key h, if_pos (by rw [hp]; rfl), show idx g x - g.locVol - g.bordVol + g.locVol + g.bordVol = idx g x by omega, loceo_eq ok eo r hall]
    simp only [Option.map_some, Option.some.injEq]
    unfold locVolh; omega
  · intro b hb hk
    obtain ⟨y, f, hy, hyb⟩ := idx_surj_edge ok (List.mem_range.1 hb)
    have hys := surf_of_edge ok r hy
    rw [hyb, show g.locVol + g.bordVol + b - g.locVol - g.bordVol = b by omega] at hys
    rw [hys] at hk ⊢
    simp only [Option.bind_some] at hk ⊢
    rw [key hy] at hk
    split at hk
    · rename_i hc
      have hyr := idx_edge_range ok hy
      have hyall : idx g y < allVol g := by unfold allVol; omega
      rw [show b + g.locVol + g.bordVol = idx g y by omega, loceo_eq ok eo r hyall] at hk
      simp only [Option.map_some, Option.some.injEq] at hk
      have hsame : idx g y = idx g x := by
        refine eo_inj ok eo r (p := (sumZ x % 2).toNat) hyall hall ?_ ?_ ?_
        · rw [parity_idx ok eo r (ext_twoOut hy) (by rw [nOut_twoOut hy])]
          have := Option.some.inj hc; congr 1; omega
        · exact parity_idx ok eo r (ext_twoOut h) (by rw [nOut_twoOut h])
        · unfold locVolh at *; omega
      have hxy := idx_inj ok (ext_twoOut hy) (by rw [nOut_twoOut hy]) (ext_twoOut h) (by rw [nOut_twoOut h]) hsame
      subst hxy
      rw [loceo_eq ok eo r (by have := idx_loc_lt ok (pull2_inside ok hy); unfold allVol; omega)]
      have : f = e := by
        have o1 : ∀ d, ¬ Inside g y d → d = (edgeDirs e).1 ∨ d = (edgeDirs e).2 := by
          intro d hd
          by_contra hcon
          rw [not_or] at hcon
          exact hd (h.2.2 d hcon.1 hcon.2)
        have a1 := o1 _ hy.1.not_inside
        have a2 := o1 _ hy.2.1.not_inside
        have kk : ∀ f e : Edge, ((edgeDirs f).1 = (edgeDirs e).1 ∨ (edgeDirs f).1 = (edgeDirs e).2) →
            ((edgeDirs f).2 = (edgeDirs e).1 ∨ (edgeDirs f).2 = (edgeDirs e).2) → f = e := by decide
        exact kk f e a1 a2
      rw [this]
    · simp at hk

theorem eo_edge_slot {x : ICoords} {e : Edge} (h : TwoOut g x e) :
    (idx g x - g.locVol - g.bordVol) / 2 = edgeOff g 2 e (oriF g x (edgeDirs e).1) (oriF g x (edgeDirs e).2) + edgeSub g x e / 2 ∧
      edgeSub g x e / 2 < edgeLen g 2 e := by
  have h1 := idx_edge_off ok h
  have h2 := edgeOff_mul (dcOk2 ok eo) e (oriF g x (edgeDirs e).1) (oriF g x (edgeDirs e).2)
  have h3 := edgeLen_mul (dcOk2 ok eo) e
  have h4 := edgeSub_lt ok h
  omega

end

/-- C06 for a field defined on the sites of parity `p` only -/
theorem C06_eo_edges_update {V : Type} (g : Geo) (ok : g.Ok) (eo : EoOk g) (p : Nat) (hp : p < 2) (F : Nat → Nat → V) (r : Coords)
    (hr : IsRank g r) :
    ∃ buf, eoEdgesAfterUpdate g p F r = some buf ∧
      ∀ i, i < g.edgeVol / 2 → ∃ l c rk ll e, loclxOfLoceo g r p ((g.locVol + g.bordVol) / 2 + i) = some l ∧
        glbCoordOfLoclx g r l = some c ∧
        getLoclxAndRankOfCoords g c = (rk, ll) ∧ loclxParity g (coordOfLx rk g.R) ll = some p ∧
        loceoOfLoclx g (coordOfLx rk g.R) ll = some e ∧ buf i = some (F rk e) := by
  obtain ⟨buf, hb, hs⟩ := edgeRecvBuf_spec ok (dcOk2 ok eo) (fun r i => (surfeoOfEdgeo g r p i).map (F (lxOfCoord r g.R))) hr
  refine ⟨buf, hb, fun i hi => ?_⟩
  have hev := even_locVol ok eo
  have h6 : g.bordVol = 2 * g.bordVolh := rfl
  have h7 : g.edgeVol = 4 * edgeVolq g := rfl
  obtain ⟨l, b1, b2, b3, b4⟩ := site_of ok eo r (p := p) (e := (g.locVol + g.bordVol) / 2 + i) hp (by unfold allVol; omega)
  obtain ⟨x, e, hx, he⟩ := idx_surj_edge ok (i := l - g.locVol - g.bordVol) (by unfold allVol at b1; omega)
  replace he : idx g x = l := by omega
  have hpar := parity_idx ok eo r (ext_twoOut hx) (by rw [nOut_twoOut hx])
  rw [he, b2] at hpar
  have hpar := Option.some.inj hpar
  have hx' := flip2_twoOut ok hx
  have hne := edge_ne e
  have hr' := rankEdgeNeigh_isRank ok hr (oriF g x (edgeDirs e).1) (oriF g x (edgeDirs e).2) e
  have hpi := pull2_inside ok hx'
  have hpl := idx_loc_lt ok hpi
  obtain ⟨s1, s2⟩ := eo_edge_slot ok eo hx
  obtain ⟨s3, s4⟩ := eo_edge_slot ok eo hx'
  have a := sumZ_pull2 ok eo hx'
  have b := sumZ_flip2 ok eo hx
  refine ⟨l, torus g r x, lxOfCoord (rankEdgeNeigh g r (oriF g x (edgeDirs e).1) (oriF g x (edgeDirs e).2) e) g.R,
    idx g (pull2 g (flip2 g x e) e), idx g (pull2 g (flip2 g x e) e) / 2, b4, ?_, ?_, ?_, ?_, ?_⟩
  · rw [← he]; exact glbCoord_table ok r (ext_twoOut hx) (by rw [nOut_twoOut hx])
  · rw [← torus_flip2 ok hr hx]; exact owner_torus ok hr' hpi
  · rw [coordOfRank ok eo hr', parity_idx ok eo _ (ext_inside hpi) (by rw [nOut_inside hpi]; omega)]
    congr 1; omega
  · rw [coordOfRank ok eo hr']; exact loceo_eq ok eo _ (by unfold allVol; omega)
  · have hi' : i = edgeOff g 2 e (oriF g x (edgeDirs e).1) (oriF g x (edgeDirs e).2) + edgeSub g x e / 2 := by rw [← s1]; omega
    rw [hi', hs e _ _ _ hx.1.1 hx.2.1.1 s2]
    have o1 : oriF g (flip2 g x e) (edgeDirs e).1 = 1 - oriF g x (edgeDirs e).1 := by
      rw [← oriF_flip' ok hx.1]; exact oriF_congr (flip_ne hne)
    have o2 : oriF g (flip2 g x e) (edgeDirs e).2 = 1 - oriF g x (edgeDirs e).2 := by
      rw [← oriF_flip' ok hx.2.1]; exact oriF_congr (flip_congr (flip_ne hne.symm))
    rw [o1, o2, edgeSub_flip2 ok x e] at s3
    rw [← s3, surfeo_edge_eq ok eo _ hx' (p := p)]
    · rfl
    · omega

example : (∀ mu, ![1, 0, 1, 2] mu < exEo.R mu) ∧ exEo.bordVol / 2 = 128 ∧ exEo.edgeVol / 2 = 80 := by decide

end Nissa.Lx
