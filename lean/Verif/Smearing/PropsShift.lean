import Verif.Smearing.Gaussian
import Verif.Stencil.Lattice

/-! # C59: shift of a field -/

set_option linter.all false

namespace Nissa.Gsm
open Nissa.Lx Nissa.Sten

/-- the loop along a line `s 0, s 1, ..., s (n-1)` -/
theorem shiftLoop_spec {V : Type} (neigh : Nat → Nat) (sh lim x0 : Int) (s : Nat → Nat) (n e : Nat) (hn : 0 < n)
    (hinj : ∀ a < n, ∀ b < n, s a = s b → a = b) (hnb : ∀ j, j + 1 < n → neigh (s j) = s (j + 1)) (he : neigh (s (n - 1)) = e)
    (hlim : ∀ j < n, x0 + sh * j ≠ lim) (hend : x0 + sh * n = lim) :
    ∀ (k j : Nat) (u : Nat → V), j + k + 1 = n → ∃ w, shiftLoop neigh sh lim (k + 1) u (s j) (x0 + sh * j) = some (w, s (n - 1)) ∧
      (∀ i, (∀ a, j ≤ a → a < n → i ≠ s a) → w i = u i) ∧ (∀ a, j ≤ a → a + 1 < n → w (s a) = u (s (a + 1))) ∧
      ((∀ a, j ≤ a → a + 1 < n → e ≠ s a) → w (s (n - 1)) = u e) := by
  intro k
  induction k with
  | zero =>
    intro j u hj
    have hjn : j = n - 1 := by omega
    subst hjn
    have hx : x0 + sh * ((n - 1 : Nat) : Int) + sh = lim := by
      rw [← hend]; push_cast [Nat.cast_sub hn]; ring
    refine ⟨Function.update u (s (n - 1)) (u e), ?_, ?_, ?_, ?_⟩
    · unfold shiftLoop
      simp only [he, hx, ne_eq, not_true_eq_false, if_false]
    · intro i hi
      exact Function.update_of_ne (hi (n - 1) (le_refl _) (by omega)) _ _
    · intro a ha hb; omega
    · intro _
      exact Function.update_self _ _ _
  | succ k ih =>
    intro j u hj
    have hx : x0 + sh * (j : Int) + sh = x0 + sh * ((j + 1 : Nat) : Int) := by push_cast; ring
    obtain ⟨w, h1, h2, h3, h4⟩ := ih (j + 1) (Function.update u (s j) (u (s (j + 1)))) (by omega)
    have hne : ∀ a, j + 1 ≤ a → a < n → s a ≠ s j := fun a ha hb h => by have := hinj a hb j (by omega) h; omega
    refine ⟨w, ?_, ?_, ?_, ?_⟩
    · rw [shiftLoop]
      simp only [hnb j (by omega), hx]
      rw [if_pos (hlim (j + 1) (by omega))]
      exact h1
    · intro i hi
      rw [h2 i (fun a ha hb => hi a (by omega) hb)]
      exact Function.update_of_ne (hi j (le_refl _) (by omega)) _ _
    · intro a ha hb
      rcases Nat.eq_or_lt_of_le ha with rfl | hlt
      · rw [h2 (s j) (fun a ha hb => (hne a ha hb).symm), Function.update_self]
      · rw [h3 a hlt hb]
        exact Function.update_of_ne (hne (a + 1) (by omega) hb) _ _
    · intro h
      rw [h4 (fun a ha hb => h a (by omega) hb)]
      exact Function.update_of_ne (h j (le_refl _) (by omega)) _ _

section
variable {g : Geo} (ok : g.Ok)
include ok

theorem nb_in (r : Coords) (ji : Nat) (y : Coords) (hy : ∀ nu, y nu < g.loc nu) (mu : Dir) (d : Int) (h0 : 0 ≤ (y mu : Int) + d) (h1 : (y mu : Int) + d < g.loc mu) :
    idxOf ji (loclxNeigh g r d (lxOfCoord y g.loc) mu) = lxOfCoord (Function.update y mu ((y mu : Int) + d).toNat) g.loc := by
  set X : ICoords := fun nu => (y nu : Int) with hX
  have hin : ∀ nu, Inside g X nu := fun nu => ⟨by simp [hX], by simp only [hX]; exact_mod_cast hy nu⟩
  have hi : idx g X = lxOfCoord y g.loc := by rw [idx_loc ok hin]; congr 1
  have hin' : ∀ nu, Inside g (shift X mu d) nu := by
    intro nu
    by_cases hm : nu = mu
    · subst hm; unfold Inside shift; rw [Function.update_self]; exact ⟨h0, h1⟩
    · have := hin nu; unfold Inside shift at *; rw [Function.update_of_ne hm]; exact this
  rw [← hi, neigh_eq ok r (ext_inside hin) (by rw [nOut_inside hin]; omega), fullLx_loc ok hin']
  show lxOfCoord _ _ = _
  congr 1
  funext nu
  by_cases hm : nu = mu
  · subst hm; unfold shift; rw [Function.update_self, Function.update_self]
  · unfold shift; rw [Function.update_of_ne hm, Function.update_of_ne hm]; simp [hX]

theorem nb_wrap (r : Coords) (ji : Nat) (y : Coords) (hy : ∀ nu, y nu < g.loc nu) (mu : Dir) (d : Int) (hR : g.R mu = 1) (z : Nat) (hz : z < g.loc mu)
    (hw : (z : Int) = y mu + d + g.loc mu ∨ (z : Int) = y mu + d - g.loc mu) :
    idxOf ji (loclxNeigh g r d (lxOfCoord y g.loc) mu) = lxOfCoord (Function.update y mu z) g.loc := by
  set X : ICoords := fun nu => (y nu : Int) with hX
  have hin : ∀ nu, Inside g X nu := fun nu => ⟨by simp [hX], by simp only [hX]; exact_mod_cast hy nu⟩
  have hi : idx g X = lxOfCoord y g.loc := by rw [idx_loc ok hin]; congr 1
  set Z : ICoords := Function.update X mu (z : Int) with hZ
  have hinZ : ∀ nu, Inside g Z nu := by
    intro nu
    by_cases hm : nu = mu
    · subst hm; unfold Inside; rw [hZ, Function.update_self]; omega
    · have := hin nu; unfold Inside at *; rw [hZ, Function.update_of_ne hm]; exact this
  have hL : (g.L mu : Int) = g.loc mu := by rw [L_eq ok, hR]; push_cast; ring
  have hmod : ∀ nu, (shift X mu d) nu % (g.L nu : Int) = Z nu % (g.L nu : Int) := by
    intro nu
    by_cases hm : nu = mu
    · subst hm
      unfold shift
      rw [hZ, Function.update_self, Function.update_self, hL]
      rcases hw with hw | hw
      · rw [hw]; simp [hX]
      · rw [hw]; simp [hX]
    · unfold shift; rw [hZ, Function.update_of_ne hm, Function.update_of_ne hm]
  rw [← hi, neigh_eq ok r (ext_inside hin) (by rw [nOut_inside hin]; omega), fullLx_congr ok hmod, fullLx_loc ok hinZ]
  show lxOfCoord _ _ = _
  congr 1
  funext nu
  by_cases hm : nu = mu
  · subst hm; rw [hZ, Function.update_self, Function.update_self]; simp
  · rw [hZ, Function.update_of_ne hm, Function.update_of_ne hm]; simp [hX]

theorem nb_out (r : Coords) (ji : Nat) (y : Coords) (hy : ∀ nu, y nu < g.loc nu) (mu : Dir) (d : Int) (hR : 1 < g.R mu)
    (hw : (y mu : Int) + d = -1 ∨ (y mu : Int) + d = g.loc mu) :
    g.locVol ≤ idxOf ji (loclxNeigh g r d (lxOfCoord y g.loc) mu) := by
  set X : ICoords := fun nu => (y nu : Int) with hX
  have hin : ∀ nu, Inside g X nu := fun nu => ⟨by simp [hX], by simp only [hX]; exact_mod_cast hy nu⟩
  have hi : idx g X = lxOfCoord y g.loc := by rw [idx_loc ok hin]; congr 1
  have hone : OneOut g (shift X mu d) mu := by
    refine ⟨⟨hR, ?_⟩, fun nu hm => ?_⟩
    · unfold shift; rw [Function.update_self]; exact hw
    · have := hin nu; unfold Inside shift at *; rw [Function.update_of_ne hm]; exact this
  rw [← hi, neigh_eq ok r (ext_inside hin) (by rw [nOut_inside hin]; omega), idx_spec ok (ext_oneOut hone) (by rw [nOut_oneOut hone]; omega)]
  exact (idx_bord_range ok hone).1

end

/-! ### Lines -/

theorem mix3 (na nb nc a b c : Nat) (hb : b < nb) (hc : c < nc) : ((a * nb + b) * nc + c) % nc = c ∧ ((a * nb + b) * nc + c) / nc % nb = b ∧ ((a * nb + b) * nc + c) / nc / nb = a := by
  have h1 : ((a * nb + b) * nc + c) / nc = a * nb + b := by
    rw [Nat.add_comm, Nat.add_mul_div_right _ _ (by omega), Nat.div_eq_of_lt hc]; omega
  refine ⟨?_, ?_, ?_⟩
  · rw [Nat.add_comm, Nat.add_mul_mod_self_right, Nat.mod_eq_of_lt hc]
  · rw [h1, Nat.add_comm, Nat.add_mul_mod_self_right, Nat.mod_eq_of_lt hb]
  · rw [h1, Nat.add_comm, Nat.add_mul_div_right _ _ (by omega), Nat.div_eq_of_lt hb]; omega

theorem mix3_lt (na nb nc a b c : Nat) (ha : a < na) (hb : b < nb) (hc : c < nc) : (a * nb + b) * nc + c < na * nb * nc := by
  have h1 : a * nb + b + 1 ≤ na * nb := by
    have : (a + 1) * nb ≤ na * nb := Nat.mul_le_mul_right _ ha
    rw [Nat.add_mul] at this; omega
  have h2 : (a * nb + b + 1) * nc ≤ na * nb * nc := Nat.mul_le_mul_right _ h1
  rw [Nat.add_mul] at h2; omega

theorem mix3_inv (na nb nc i : Nat) (hi : i < na * nb * nc) : (i / nc / nb * nb + i / nc % nb) * nc + i % nc = i ∧ i / nc / nb < na := by
  constructor
  · rw [Nat.mul_comm (i / nc / nb), Nat.div_add_mod, Nat.mul_comm, Nat.div_add_mod]
  · have hc : 0 < nc := by rcases Nat.eq_zero_or_pos nc with h | h <;> simp_all
    have hb : 0 < nb := by rcases Nat.eq_zero_or_pos nb with h | h <;> simp_all
    rw [Nat.div_lt_iff_lt_mul hb, Nat.div_lt_iff_lt_mul hc]; exact hi

/-- the three directions orthogonal to `mu` -/
theorem perp_form (mu : Dir) : ∃ a b c : Dir, Geo.perpDirs mu = [a, b, c] ∧ a ≠ mu ∧ b ≠ mu ∧ c ≠ mu ∧ a ≠ b ∧ a ≠ c ∧ b ≠ c ∧ (∀ nu, nu ≠ mu → nu = a ∨ nu = b ∨ nu = c) ∧
    ∀ s : Coords, volOfLx s = s a * s b * s c * s mu := by
  fin_cases mu
  · exact ⟨1, 2, 3, rfl, by decide, by decide, by decide, by decide, by decide, by decide, by decide, fun s => by simp [volOfLx, dirs]; ring⟩
  · exact ⟨0, 2, 3, rfl, by decide, by decide, by decide, by decide, by decide, by decide, by decide, fun s => by simp [volOfLx, dirs]; ring⟩
  · exact ⟨0, 1, 3, rfl, by decide, by decide, by decide, by decide, by decide, by decide, by decide, fun s => by simp [volOfLx, dirs]; ring⟩
  · exact ⟨0, 1, 2, rfl, by decide, by decide, by decide, by decide, by decide, by decide, by decide, fun s => by simp [volOfLx, dirs]⟩

section
variable {g : Geo} (ok : g.Ok)
include ok

/-- each set of coordinates orthogonal to `mu` belongs to exactly one line -/
theorem perp_bij (mu : Dir) :
    (∀ i < g.locVol / g.loc mu, ∀ nu, nu ≠ mu → perpCoords g mu i nu < g.loc nu) ∧
    (∀ i < g.locVol / g.loc mu, ∀ j < g.locVol / g.loc mu, (∀ nu, nu ≠ mu → perpCoords g mu i nu = perpCoords g mu j nu) → i = j) ∧
    (∀ x : Coords, (∀ nu, x nu < g.loc nu) → ∃ i < g.locVol / g.loc mu, ∀ nu, nu ≠ mu → perpCoords g mu i nu = x nu) := by
  obtain ⟨a, b, c, hp, am, bm, cm, ab, ac, bc, hall, hv⟩ := perp_form mu
  have hvol : g.locVol / g.loc mu = g.loc a * g.loc b * g.loc c := by
    rw [locVol_eq ok, hv, Nat.mul_div_cancel _ (loc_pos ok mu)]
  have ea : ∀ i, perpCoords g mu i a = i / g.loc c / g.loc b % g.loc a := by
    intro i; simp [perpCoords, hp, Function.update_apply]
  have eb : ∀ i, perpCoords g mu i b = i / g.loc c % g.loc b := by
    intro i; simp [perpCoords, hp, Function.update_apply, ab.symm]
  have ec : ∀ i, perpCoords g mu i c = i % g.loc c := by
    intro i; simp [perpCoords, hp, Function.update_apply, ac.symm, bc.symm]
  rw [hvol]
  refine ⟨fun i hi nu hnu => ?_, fun i hi j hj h => ?_, fun x hx => ?_⟩
  · rcases hall nu hnu with rfl | rfl | rfl
    · rw [ea]; exact Nat.mod_lt _ (loc_pos ok _)
    · rw [eb]; exact Nat.mod_lt _ (loc_pos ok _)
    · rw [ec]; exact Nat.mod_lt _ (loc_pos ok _)
  · have h1 := h a am; have h2 := h b bm; have h3 := h c cm
    rw [ea, ea] at h1; rw [eb, eb] at h2; rw [ec, ec] at h3
    have i1 := mix3_inv _ _ _ _ hi; have j1 := mix3_inv _ _ _ _ hj
    rw [Nat.mod_eq_of_lt i1.2, Nat.mod_eq_of_lt j1.2] at h1
    rw [← i1.1, ← j1.1, h1, h2, h3]
  · obtain ⟨m1, m2, m3⟩ := mix3 (g.loc a) (g.loc b) (g.loc c) (x a) (x b) (x c) (hx b) (hx c)
    refine ⟨(x a * g.loc b + x b) * g.loc c + x c, mix3_lt _ _ _ _ _ _ (hx a) (hx b) (hx c), fun nu hnu => ?_⟩
    rcases hall nu hnu with rfl | rfl | rfl
    · rw [ea, m3, Nat.mod_eq_of_lt (hx _)]
    · rw [eb, m2]
    · rw [ec, m1]

/-- sites of a line -/
def lineSite (g : Geo) (mu : Dir) (i k : Nat) : Nat := lxOfCoord (Function.update (perpCoords g mu i) mu k) g.loc

theorem line_coords (mu : Dir) {i k : Nat} (hi : i < g.locVol / g.loc mu) (hk : k < g.loc mu) (nu : Dir) : Function.update (perpCoords g mu i) mu k nu < g.loc nu := by
  by_cases hm : nu = mu
  · subst hm; rw [Function.update_self]; exact hk
  · rw [Function.update_of_ne hm]; exact (perp_bij ok mu).1 i hi nu hm

theorem line_lt (mu : Dir) {i k : Nat} (hi : i < g.locVol / g.loc mu) (hk : k < g.loc mu) : lineSite g mu i k < g.locVol := by
  rw [locVol_eq ok]
  exact lxOfCoord_lt (line_coords ok mu hi hk)

theorem line_inj (mu : Dir) {i k j l : Nat} (hi : i < g.locVol / g.loc mu) (hk : k < g.loc mu) (hj : j < g.locVol / g.loc mu) (hl : l < g.loc mu)
    (h : lineSite g mu i k = lineSite g mu j l) : i = j ∧ k = l := by
  have := lxOfCoord_inj (line_coords ok mu hi hk) (line_coords ok mu hj hl) h
  constructor
  · refine (perp_bij ok mu).2.1 i hi j hj fun nu hm => ?_
    have := congrFun this nu
    rwa [Function.update_of_ne hm, Function.update_of_ne hm] at this
  · have := congrFun this mu
    rwa [Function.update_self, Function.update_self] at this

theorem line_surj (mu : Dir) {X : Nat} (hX : X < g.locVol) : ∃ i < g.locVol / g.loc mu, ∃ k < g.loc mu, X = lineSite g mu i k := by
  rw [locVol_eq ok] at hX
  obtain ⟨h1, h2⟩ := coordOfLx_spec (fun d => loc_pos ok d) hX
  obtain ⟨i, hi, h⟩ := (perp_bij ok mu).2.2 (coordOfLx X g.loc) h1
  refine ⟨i, hi, coordOfLx X g.loc mu, h1 mu, ?_⟩
  unfold lineSite
  rw [← h2]
  congr 1
  funext nu
  rw [h2]
  by_cases hm : nu = mu
  · subst hm; rw [Function.update_self]
  · rw [Function.update_of_ne hm, h nu hm]

/-- the neighbour used by the shift -/
def nbOf (g : Geo) (r : Coords) (ji : Nat) (mu : Dir) (sign : Int) (i : Nat) : Nat := if sign > 0 then dwT g r ji i mu else upT g r ji i mu

/-- the neighbours of a line are in the line or out of the rank -/
theorem line_nb (r : Coords) (ji : Nat) (mu : Dir) (sign : Int) {i k : Nat} (hi : i < g.locVol / g.loc mu) (hk : k < g.loc mu) :
    (∃ l < g.loc mu, nbOf g r ji mu sign (lineSite g mu i k) = lineSite g mu i l) ∨ g.locVol ≤ nbOf g r ji mu sign (lineSite g mu i k) := by
  set d : Int := if sign > 0 then -1 else 1 with hd
  have hnb : nbOf g r ji mu sign (lineSite g mu i k) = idxOf ji (loclxNeigh g r d (lineSite g mu i k) mu) := by
    unfold nbOf dwT upT; rw [hd]; split <;> rfl
  rw [hnb]
  have hy := line_coords ok mu hi hk
  have hymu : Function.update (perpCoords g mu i) mu k mu = k := Function.update_self _ _ _
  have hd' : d = 1 ∨ d = -1 := by rw [hd]; split <;> simp
  by_cases hin : 0 ≤ (k : Int) + d ∧ (k : Int) + d < g.loc mu
  · left
    refine ⟨((k : Int) + d).toNat, by omega, ?_⟩
    have := nb_in ok r ji _ hy mu d (by rw [hymu]; exact hin.1) (by rw [hymu]; exact hin.2)
    rw [hymu, Function.update_idem] at this
    exact this
  · by_cases hR : 1 < g.R mu
    · right
      exact nb_out ok r ji _ hy mu d hR (by rw [hymu]; omega)
    · left
      have hR1 : g.R mu = 1 := by have := ok.R_pos mu; omega
      have hz : ∃ z : Nat, z < g.loc mu ∧ ((z : Int) = k + d + g.loc mu ∨ (z : Int) = k + d - g.loc mu) := by
        rcases hd' with h | h
        · exact ⟨0, by omega, by omega⟩
        · exact ⟨g.loc mu - 1, by omega, by omega⟩
      obtain ⟨z, hz1, hz2⟩ := hz
      refine ⟨z, hz1, ?_⟩
      have := nb_wrap ok r ji _ hy mu d hR1 z hz1 (by rw [hymu]; exact hz2)
      rw [Function.update_idem] at this
      exact this

/-- a line: every site takes the value of its neighbour, all the rest is not touched -/
theorem line_spec {V : Type} (r : Coords) (ji : Nat) (mu : Dir) (sign : Int) (u : Nat → V) {i : Nat} (hi : i < g.locVol / g.loc mu) :
    ∃ w, shiftLine g r ji mu sign u i = some w ∧ (∀ k < g.loc mu, w (lineSite g mu i k) = u (nbOf g r ji mu sign (lineSite g mu i k))) ∧
      ∀ X, (∀ k < g.loc mu, X ≠ lineSite g mu i k) → w X = u X := by
  set n := g.loc mu with hn
  have hn0 : 0 < n := loc_pos ok mu
  set d : Int := if sign > 0 then -1 else 1 with hd
  set st : Int := if sign > 0 then (n : Int) - 1 else 0 with hst
  set en : Int := if sign > 0 then 0 else (n : Int) - 1 with hen
  have hcase : (d = -1 ∧ st = n - 1 ∧ en = 0) ∨ (d = 1 ∧ st = 0 ∧ en = n - 1) := by
    rw [hd, hst, hen]; split <;> simp
  set s : Nat → Nat := fun j => lineSite g mu i (st + d * j).toNat with hs
  have hk : ∀ j < n, 0 ≤ st + d * (j : Int) ∧ st + d * (j : Int) < n := by
    intro j hj
    rcases hcase with ⟨h1, h2, -⟩ | ⟨h1, h2, -⟩ <;> rw [h1, h2] <;> omega
  have hkn : ∀ j < n, (st + d * (j : Int)).toNat < n := fun j hj => by have := hk j hj; omega
  have hsinj : ∀ a < n, ∀ b < n, s a = s b → a = b := by
    intro a ha b hb h
    have h2 := (line_inj ok mu hi (hkn a ha) hi (hkn b hb) h).2
    have h3 := hk a ha; have h4 := hk b hb
    rcases hcase with ⟨h1, -, -⟩ | ⟨h1, -, -⟩ <;> rw [h1] at h2 h3 h4 <;> omega
  have hnbe : ∀ X, nbOf g r ji mu sign X = idxOf ji (loclxNeigh g r d X mu) := by
    intro X; unfold nbOf dwT upT; rw [hd]; split <;> rfl
  have hnb : ∀ j, j + 1 < n → nbOf g r ji mu sign (s j) = s (j + 1) := by
    intro j hj
    have hy := line_coords ok mu hi (hkn j (by omega))
    have hymu : Function.update (perpCoords g mu i) mu (st + d * (j : Int)).toNat mu = (st + d * (j : Int)).toNat := Function.update_self _ _ _
    have h0 := hk j (by omega)
    have h1 := hk (j + 1) hj
    have e1 : (((st + d * (j : Int)).toNat : Nat) : Int) = st + d * j := Int.toNat_of_nonneg h0.1
    have e2 : st + d * ((j + 1 : Nat) : Int) = st + d * j + d := by push_cast; ring
    rw [e2] at h1
    have := nb_in ok r ji _ hy mu d (by rw [hymu, e1]; exact h1.1) (by rw [hymu, e1]; exact h1.2)
    rw [hymu, Function.update_idem, e1] at this
    rw [hnbe]
    simp only [hs, e2]
    exact this
  have hx0 : (lxOfCoord (Function.update (perpCoords g mu i) mu st.toNat) g.loc) = s 0 := by
    simp only [hs]; unfold lineSite; simp
  obtain ⟨w, h1, h2, h3, h4⟩ := shiftLoop_spec (nbOf g r ji mu sign) d (en + d) st s n (nbOf g r ji mu sign (s (n - 1))) hn0 hsinj hnb rfl
    (by intro j hj; rcases hcase with ⟨a, b, c⟩ | ⟨a, b, c⟩ <;> rw [a, b, c] <;> omega)
    (by rcases hcase with ⟨a, b, c⟩ | ⟨a, b, c⟩ <;> rw [a, b, c] <;> omega) (n - 1) 0 u (by omega)
  have hfuel : n - 1 + 1 = n := by omega
  rw [hfuel] at h1
  simp only [Nat.cast_zero, mul_zero, add_zero] at h1
  have hline : shiftLine g r ji mu sign u i = some (if g.R mu = 1 then Function.update w (s (n - 1)) (u (s 0)) else w) := by
    unfold shiftLine
    simp only
    rw [← hn, ← hd, ← hst, ← hen, hx0]
    show (shiftLoop (nbOf g r ji mu sign) d (en + d) n u (s 0) st).map _ = _
    rw [h1]
    rfl
  -- the last neighbour
  have hidx : ∀ k < n, ∃ j < n, k = (st + d * (j : Int)).toNat := by
    intro k hk'
    rcases hcase with ⟨a, b, -⟩ | ⟨a, b, -⟩
    · exact ⟨n - 1 - k, by omega, by rw [a, b]; omega⟩
    · exact ⟨k, hk', by rw [a, b]; omega⟩
  have hlast : (g.R mu = 1 → nbOf g r ji mu sign (s (n - 1)) = s 0) ∧ (g.R mu ≠ 1 → g.locVol ≤ nbOf g r ji mu sign (s (n - 1))) := by
    have hy := line_coords ok mu hi (hkn (n - 1) (by omega))
    have hymu : Function.update (perpCoords g mu i) mu (st + d * ((n - 1 : Nat) : Int)).toNat mu = (st + d * ((n - 1 : Nat) : Int)).toNat := Function.update_self _ _ _
    have h0 := hk (n - 1) (by omega)
    have h00 := hk 0 hn0
    have e1 : (((st + d * ((n - 1 : Nat) : Int)).toNat : Nat) : Int) = st + d * ((n - 1 : Nat) : Int) := Int.toNat_of_nonneg h0.1
    constructor
    · intro hR
      have := nb_wrap ok r ji _ hy mu d hR (st + d * ((0 : Nat) : Int)).toNat (hkn 0 hn0) (by
        rw [hymu, e1, Int.toNat_of_nonneg h00.1, ← hn]
        rcases hcase with ⟨a, b, -⟩ | ⟨a, b, -⟩ <;> rw [a, b] <;> omega)
      rw [Function.update_idem] at this
      rw [hnbe]
      exact this
    · intro hR
      have hR' : 1 < g.R mu := by have := ok.R_pos mu; omega
      rw [hnbe]
      exact nb_out ok r ji _ hy mu d hR' (by
        rw [hymu, e1, ← hn]
        rcases hcase with ⟨a, b, -⟩ | ⟨a, b, -⟩ <;> rw [a, b] <;> omega)
  refine ⟨_, hline, ?_, ?_⟩
  · intro k hk'
    obtain ⟨j, hj, rfl⟩ := hidx k hk'
    show (if g.R mu = 1 then Function.update w (s (n - 1)) (u (s 0)) else w) (s j) = u (nbOf g r ji mu sign (s j))
    by_cases hjl : j + 1 < n
    · have hne : s j ≠ s (n - 1) := fun h => by have := hsinj j hj (n - 1) (by omega) h; omega
      have : (if g.R mu = 1 then Function.update w (s (n - 1)) (u (s 0)) else w) (s j) = w (s j) := by
        split
        · exact Function.update_of_ne hne _ _
        · rfl
      rw [this, h3 j (by omega) hjl, hnb j hjl]
    · have hjn : j = n - 1 := by omega
      subst hjn
      by_cases hR : g.R mu = 1
      · rw [if_pos hR, Function.update_self, hlast.1 hR]
      · rw [if_neg hR]
        refine h4 fun a ha hb h => ?_
        have h5 := hlast.2 hR
        have h6 := line_lt ok mu hi (hkn a (by omega))
        rw [h] at h5
        exact absurd h6 (not_lt.2 h5)
  · intro X hX
    have hXs : ∀ a < n, X ≠ s a := fun a ha => hX _ (hkn a ha)
    have : (if g.R mu = 1 then Function.update w (s (n - 1)) (u (s 0)) else w) X = w X := by
      split
      · exact Function.update_of_ne (hXs _ (by omega)) _ _
      · rfl
    rw [this]
    exact h2 X fun a _ ha => hXs a ha

theorem lines_spec {V : Type} (r : Coords) (ji : Nat) (mu : Dir) (sign : Int) (l : List Nat) (hl : l.Nodup) (hlt : ∀ i ∈ l, i < g.locVol / g.loc mu) (u : Nat → V) :
    ∃ w, l.foldlM (shiftLine g r ji mu sign) u = some w ∧ (∀ i ∈ l, ∀ k < g.loc mu, w (lineSite g mu i k) = u (nbOf g r ji mu sign (lineSite g mu i k))) ∧
      ∀ X, (∀ i ∈ l, ∀ k < g.loc mu, X ≠ lineSite g mu i k) → w X = u X := by
  induction l generalizing u with
  | nil => exact ⟨u, rfl, by simp, fun _ _ => rfl⟩
  | cons a l ih =>
    obtain ⟨w1, e1, f1, n1⟩ := line_spec ok r ji mu sign u (hlt a (List.mem_cons_self ..))
    have hal : a ∉ l := (List.nodup_cons.1 hl).1
    obtain ⟨w, e, f, n⟩ := ih (List.nodup_cons.1 hl).2 (fun i hi => hlt i (List.mem_cons_of_mem _ hi)) w1
    have ha := hlt a (List.mem_cons_self ..)
    refine ⟨w, by simp only [List.foldlM_cons, e1, Option.bind_eq_bind, Option.bind_some, e], ?_, ?_⟩
    · intro i hi k hk
      rcases List.mem_cons.1 hi with rfl | hil
      · rw [n _ (fun j hj k' hk' h => by
          have := (line_inj ok mu ha hk (hlt j (List.mem_cons_of_mem _ hj)) hk' h).1
          subst this; exact hal hj)]
        exact f1 k hk
      · rw [f i hil k hk]
        refine n1 _ fun k' hk' h => ?_
        have hi' := hlt i (List.mem_cons_of_mem _ hil)
        rcases line_nb ok r ji mu sign hi' hk with ⟨k2, hk2, h2⟩ | h2
        · rw [h2] at h
          have := (line_inj ok mu hi' hk2 ha hk' h).1
          exact hal (this ▸ hil)
        · rw [h] at h2
          exact absurd (line_lt ok mu ha hk') (not_lt.2 h2)
    · intro X hX
      rw [n X fun i hi k hk => hX i (List.mem_cons_of_mem _ hi) k hk]
      exact n1 X fun k hk => hX a (List.mem_cons_self ..) k hk

/-- C59: the shift never fails and moves the whole lattice by one site: after it the site `x` holds what was at `x - mu` (`sign>0`) or at
`x + mu` (otherwise), on every grid of ranks and for any order of the lines. -/
theorem C59_shift {V : Type} (ji : Nat) (jv : V) (mu : Dir) (sign : Int) (sched : Nat → List Nat) (hs : ∀ rk, (sched rk).Perm (List.range (g.locVol / g.loc mu))) (u : Nat → Nat → V) :
    ∃ w : Nat → Nat → V, (∀ rk < g.nranks, su3_vec_single_shift g ji jv mu sign (sched rk) u rk = some (w rk)) ∧
      ∀ x ∈ box g.L, glob g w x = glob g u (tshift g x mu (if sign > 0 then -1 else 1)) := by
  have h : ∀ rk, ∃ w, su3_vec_single_shift g ji jv mu sign (sched rk) u rk = some w ∧
      (∀ i ∈ sched rk, ∀ k < g.loc mu, w (lineSite g mu i k) = mem g jv u (coordOfLx rk g.R) (nbOf g (coordOfLx rk g.R) ji mu sign (lineSite g mu i k))) := by
    intro rk
    obtain ⟨w, e, f, -⟩ := lines_spec ok (coordOfLx rk g.R) ji mu sign (sched rk) ((hs rk).symm.nodup List.nodup_range) (fun i hi => List.mem_range.1 ((hs rk).subset hi))
      (mem g jv u (coordOfLx rk g.R))
    exact ⟨w, e, f⟩
  choose w hw hf using h
  refine ⟨w, fun rk _ => hw rk, fun x hx => ?_⟩
  obtain ⟨rk, X, h1, h2, hr, hX, hG⟩ := lxSite ok hx
  rw [hG w]
  obtain ⟨i, hi, k, hk, rfl⟩ := line_surj ok mu h2
  rw [hf rk i ((hs rk).symm.subset (List.mem_range.2 hi)) k hk]
  unfold nbOf
  split
  · exact mem_dw ok jv ji u hr h2 hX mu
  · exact mem_up ok jv ji u hr h2 hX mu

/-- C59: the shift of four links at once is right for `sign=1`, `0`; with `-1`, the value for which the other one moves backward, it reads the table
of the neighbours out of bounds -/
theorem C59_quad_shift {V : Type} (ji : Nat) (jv : V) (mu : Dir) (u : Nat → Nat → V) :
    (∀ x ∈ box g.L, glob g (quad_su3_vec_single_shift g ji jv mu 1 u) x = some (glob g u (tshift g x mu (-1)))) ∧
    (∀ x ∈ box g.L, glob g (quad_su3_vec_single_shift g ji jv mu 0 u) x = some (glob g u (tshift g x mu 1))) ∧
    ∀ rk ivol, quad_su3_vec_single_shift g ji jv mu (-1) u rk ivol = none := by
  refine ⟨fun x hx => ?_, fun x hx => ?_, fun rk ivol => rfl⟩
  · obtain ⟨rk, X, h1, h2, hr, hX, hG⟩ := lxSite ok hx
    rw [hG]
    show some _ = _
    rw [mem_dw ok jv ji u hr h2 hX mu]
  · obtain ⟨rk, X, h1, h2, hr, hX, hG⟩ := lxSite ok hx
    rw [hG]
    show some _ = _
    rw [mem_up ok jv ji u hr h2 hX mu]

end

end Nissa.Gsm
