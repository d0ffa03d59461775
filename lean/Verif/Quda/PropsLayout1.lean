import Verif.Quda.Layout

set_option linter.all false

/-! C79: fields exchanged with QUDA. -/

namespace Nissa.Quda

open Nissa.Lx Nissa.Lx.Geo

variable {g : Geo}

theorem mix_qudaOrder (s x : Coords) : mix qudaOrder s x = ((x 0 * s 3 + x 3) * s 2 + x 2) * s 1 + x 1 := by
  simp [mix, qudaOrder]

theorem perm_ofQuda (y : Coords) (d : Dir) : ofQuda y (dirOf d) = y d := by
  fin_cases d <;> rfl

theorem toQuda_ofQuda (y : Coords) : toQuda (ofQuda y) = y := by
  funext d; fin_cases d <;> rfl

theorem ofQuda_toQuda (x : Coords) : ofQuda (toQuda x) = x := by
  funext d; fin_cases d <;> rfl

section
variable (ok : g.Ok) (eo : EoOk g)
include ok eo

theorem locVol_prod : g.locVol = g.loc 0 * g.loc 1 * g.loc 2 * g.loc 3 := by
  rw [locVol_eq ok, C01_volOfLx]

/-- Site of nissa of coordinates x: its index for QUDA. -/
theorem quda_of_site (r : Coords) (x : Coords) (hx : ∀ mu, x mu < g.loc mu) :
    qudaOfLoclx g r (lxOfCoord x g.loc) = some (qudaSite (toQuda g.loc) (toQuda x)) ∧
    qudaSite (toQuda g.loc) (toQuda x) < g.locVol := by
  have hin : ∀ mu, Inside g (fun mu => (x mu : Int)) mu := by
    intro mu; have := hx mu; simp only [Inside]; omega
  have hi := idx_loc ok hin
  have hn : nat (fun mu => (x mu : Int)) = x := by funext mu; simp [nat]
  rw [hn] at hi
  have h1 := locCoord_table ok hin
  have h2 := parity_idx ok eo r (ext_inside hin) (by rw [nOut_inside hin]; omega)
  rw [hi] at h1 h2
  have hs : (sumZ (fun mu => (x mu : Int)) % 2).toNat = (x 0 + x 1 + x 2 + x 3) % 2 := by
    have : sumZ (fun mu => (x mu : Int)) = ((x 0 + x 1 + x 2 + x 3 : Nat) : Int) := by
      unfold sumZ; push_cast; rfl
    rw [this]; omega
  rw [hs] at h2
  have hV := locVol_prod ok eo
  have hfold : qudaOrder.foldl (fun itmp nu => itmp * g.loc nu + ((x nu : Int)).toNat) 0 = mix qudaOrder g.loc x := rfl
  have hlt : mix qudaOrder g.loc x < g.locVol := by
    rw [mix_eq_mixR]
    have := mixR_lt (ds := qudaOrder.reverse) (s := g.loc) (x := x) (fun d _ => hx d)
    have hv : volR qudaOrder.reverse g.loc = g.locVol := by
      rw [hV]; simp [volR, qudaOrder]; ring
    omega
  have hev := even_locVol ok eo
  have hq : qudaSite (toQuda g.loc) (toQuda x) =
      (x 0 + x 1 + x 2 + x 3) % 2 * locVolh g + mix qudaOrder g.loc x / 2 := by
    have e1 : (toQuda x 0 + toQuda x 1 + toQuda x 2 + toQuda x 3) = x 1 + x 2 + x 3 + x 0 := rfl
    have e2 : toQuda g.loc 0 * toQuda g.loc 1 * toQuda g.loc 2 * toQuda g.loc 3 = g.loc 1 * g.loc 2 * g.loc 3 * g.loc 0 := rfl
    have e3 : ((toQuda x 3 * toQuda g.loc 2 + toQuda x 2) * toQuda g.loc 1 + toQuda x 1) * toQuda g.loc 0 + toQuda x 0 =
        ((x 0 * g.loc 3 + x 3) * g.loc 2 + x 2) * g.loc 1 + x 1 := rfl
    have e4 : g.loc 1 * g.loc 2 * g.loc 3 * g.loc 0 = g.locVol := by rw [hV]; ring
    unfold qudaSite
    rw [e1, e2, e3, e4, mix_qudaOrder]
    have : x 1 + x 2 + x 3 + x 0 = x 0 + x 1 + x 2 + x 3 := by omega
    rw [this]; rfl
  have hlt2 : qudaSite (toQuda g.loc) (toQuda x) < g.locVol := by
    rw [hq]
    unfold locVolh
    have : (x 0 + x 1 + x 2 + x 3) % 2 = 0 ∨ (x 0 + x 1 + x 2 + x 3) % 2 = 1 := by omega
    rcases this with h | h <;> rw [h] <;> omega
  refine ⟨?_, hlt2⟩
  unfold qudaOfLoclx
  rw [h1, h2]
  dsimp only
  rw [hfold, ← hq, if_pos hlt2]

/-- Two different sites have different indices. -/
theorem qudaSite_inj (x y : Coords) (hx : ∀ mu, x mu < g.loc mu) (hy : ∀ mu, y mu < g.loc mu)
    (h : qudaSite (toQuda g.loc) (toQuda x) = qudaSite (toQuda g.loc) (toQuda y)) : x = y := by
  have hV := locVol_prod ok eo
  have hev := even_locVol ok eo
  have hQ : ∀ x : Coords, (∀ mu, x mu < g.loc mu) → qudaSite (toQuda g.loc) (toQuda x) =
      (x 1 + x 2 + x 3 + x 0) % 2 * (g.locVol / 2) + mix qudaOrder g.loc x / 2 ∧ mix qudaOrder g.loc x < g.locVol := by
    intro x hx
    constructor
    · have e4 : g.loc 1 * g.loc 2 * g.loc 3 * g.loc 0 = g.locVol := by rw [hV]; ring
      rw [mix_qudaOrder, ← e4]; rfl
    · rw [mix_eq_mixR]
      have := mixR_lt (ds := qudaOrder.reverse) (s := g.loc) (x := x) (fun d _ => hx d)
      have hv : volR qudaOrder.reverse g.loc = g.locVol := by
        rw [hV]; simp [volR, qudaOrder]; ring
      omega
  obtain ⟨x1, x2⟩ := hQ x hx
  obtain ⟨y1, y2⟩ := hQ y hy
  rw [x1, y1] at h
  have hpar : (x 1 + x 2 + x 3 + x 0) % 2 = (y 1 + y 2 + y 3 + y 0) % 2 ∧
      mix qudaOrder g.loc x / 2 = mix qudaOrder g.loc y / 2 := by
    have a1 : (x 1 + x 2 + x 3 + x 0) % 2 = 0 ∨ (x 1 + x 2 + x 3 + x 0) % 2 = 1 := by omega
    have a2 : (y 1 + y 2 + y 3 + y 0) % 2 = 0 ∨ (y 1 + y 2 + y 3 + y 0) % 2 = 1 := by omega
    rcases a1 with a1 | a1 <;> rcases a2 with a2 | a2 <;> rw [a1, a2] at h ⊢ <;> omega
  obtain ⟨hp, hm⟩ := hpar
  have key : ∀ x y : Coords, (∀ mu, x mu < g.loc mu) → (∀ mu, y mu < g.loc mu) →
      mix qudaOrder g.loc y = mix qudaOrder g.loc x + 1 → mix qudaOrder g.loc x % 2 = 0 →
      (x 1 + x 2 + x 3 + x 0) % 2 = (y 1 + y 2 + y 3 + y 0) % 2 → False := by
    intro x y hx hy h1 h2 h3
    have he1 : x 1 % 2 = 0 := by
      rw [mix_qudaOrder, Nat.add_mod, Nat.mul_mod, eo 1] at h2
      simpa using h2
    have hx1 : x 1 + 1 < g.loc 1 := by
      have := hx 1; have := eo 1; omega
    let x' : Coords := Function.update x 1 (x 1 + 1)
    have hx' : ∀ mu, x' mu < g.loc mu := by
      intro mu
      by_cases hmu : mu = 1
      · subst hmu; simp only [x', Function.update_self]; exact hx1
      · simp only [x', Function.update_of_ne hmu]; exact hx mu
    have hmx : mix qudaOrder g.loc x' = mix qudaOrder g.loc y := by
      rw [h1, mix_qudaOrder, mix_qudaOrder]
      simp only [x', Function.update_self]
      rw [Function.update_of_ne (by decide), Function.update_of_ne (by decide), Function.update_of_ne (by decide)]
      omega
    rw [mix_eq_mixR, mix_eq_mixR] at hmx
    have hall := mixR_inj (ds := qudaOrder.reverse) (s := g.loc) (fun d _ => hx' d) (fun d _ => hy d) hmx
    have g0 := hall 0 (by decide)
    have g1 := hall 1 (by decide)
    have g2 := hall 2 (by decide)
    have g3 := hall 3 (by decide)
    simp only [x', Function.update_self] at g1
    simp only [x'] at g0 g2 g3
    rw [Function.update_of_ne (by decide)] at g0 g2 g3
    omega
  have hmm : mix qudaOrder g.loc x = mix qudaOrder g.loc y := by
    by_contra hne
    rcases Nat.lt_or_gt_of_ne hne with hlt | hlt
    · exact key x y hx hy (by omega) (by omega) hp
    · exact key y x hy hx (by omega) (by omega) hp.symm
  rw [mix_eq_mixR, mix_eq_mixR] at hmm
  have hall := mixR_inj (ds := qudaOrder.reverse) (s := g.loc) (fun d _ => hx d) (fun d _ => hy d) hmm
  funext d
  exact hall d (by revert d; decide)

theorem site_coord {i : Nat} (hi : i < g.locVol) :
    ∃ x : Coords, (∀ mu, x mu < g.loc mu) ∧ lxOfCoord x g.loc = i := by
  rw [locVol_eq ok] at hi
  have := coordOfLx_spec (fun d => loc_pos ok d) hi
  exact ⟨_, this.1, this.2⟩

theorem lxOf_lt {x : Coords} (hx : ∀ mu, x mu < g.loc mu) : lxOfCoord x g.loc < g.locVol := by
  rw [locVol_eq ok]; exact lxOfCoord_lt hx

/-- Indices of nissa. -/
theorem quda_inj (r : Coords) {i j q : Nat} (hi : i < g.locVol) (hj : j < g.locVol)
    (h1 : qudaOfLoclx g r i = some q) (h2 : qudaOfLoclx g r j = some q) : i = j := by
  obtain ⟨x, hx, rfl⟩ := site_coord ok eo hi
  obtain ⟨y, hy, rfl⟩ := site_coord ok eo hj
  rw [(quda_of_site ok eo r x hx).1] at h1
  rw [(quda_of_site ok eo r y hy).1] at h2
  have := qudaSite_inj ok eo x y hx hy ((Option.some.inj h1).trans (Option.some.inj h2).symm)
  rw [this]

end

end Nissa.Quda
