/- Helper lemmas about the extended local lattice. -/
import Verif.Geometry.Spec
import Verif.Geometry.MixRadix
import Mathlib.Tactic.Linarith
import Mathlib.Data.Fintype.Basic
import Mathlib.Tactic.FinCases

set_option linter.all false
set_option linter.dupNamespace false

namespace Nissa.Lx
open Geo
variable {g : Geo}

theorem wrapUp_emod (L : Nat) (hL : 0 < L) (x : Int) :
    wrapUp L x % L = x % L ∧ 0 ≤ wrapUp L x ∧ (x < L → wrapUp L x < L) := by
  fun_induction wrapUp L x with
  | case1 x h ih =>
    obtain ⟨h1, h2, h3⟩ := ih
    refine ⟨by simpa using h1, h2, fun _ => h3 (by omega)⟩
  | case2 x h => exact ⟨rfl, by omega, fun h => h⟩

theorem wrapDown_emod (L : Nat) (hL : 0 < L) (x : Int) (hx : 0 ≤ x) : wrapDown L x = x % L := by
  fun_induction wrapDown L x with
  | case1 x h ih => rw [ih (by omega)]; exact Int.sub_emod_right _ _
  | case2 x h => exact (Int.emod_eq_of_lt hx (by omega)).symm

theorem pseudoLoc_eq (h : ∀ mu, 0 < g.L mu) (x : ICoords) (mu : Dir) :
    g.pseudoLoc x mu = (x mu % g.L mu).toNat := by
  unfold Geo.pseudoLoc
  rw [wrapDown_emod _ (h mu) _ (wrapUp_emod _ (h mu) _).2.1, (wrapUp_emod _ (h mu) _).1]

section
variable (ok : g.Ok)
include ok

theorem L_eq (mu : Dir) : g.L mu = g.R mu * g.loc mu := (Nat.mul_div_cancel' (ok.dvd mu)).symm

theorem loc_pos (mu : Dir) : 0 < g.loc mu := by have := ok.loc_ge mu; omega

theorem L_pos (mu : Dir) : 0 < g.L mu := by
  rw [L_eq ok]; exact Nat.mul_pos (ok.R_pos mu) (loc_pos ok mu)

theorem loc_le_L (mu : Dir) : g.loc mu ≤ g.L mu := by
  rw [L_eq ok]; exact Nat.le_mul_of_pos_left _ (ok.R_pos mu)

theorem two_loc_le_L {mu : Dir} (h : 1 < g.R mu) : 2 * g.loc mu ≤ g.L mu := by
  rw [L_eq ok]; exact Nat.mul_le_mul_right _ h

theorem locVol_eq : g.locVol = volOfLx g.loc := by
  have h0 := L_eq ok 0; have h1 := L_eq ok 1; have h2 := L_eq ok 2; have h3 := L_eq ok 3
  have hp : 0 < g.nranks := by
    simp only [Geo.nranks, volOfLx, dirs, List.foldl_cons, List.foldl_nil, Nat.one_mul]
    exact Nat.mul_pos (Nat.mul_pos (Nat.mul_pos (ok.R_pos 0) (ok.R_pos 1)) (ok.R_pos 2)) (ok.R_pos 3)
  have : g.glbVol = g.nranks * volOfLx g.loc := by
    simp only [Geo.glbVol, Geo.nranks, volOfLx, dirs, List.foldl_cons, List.foldl_nil, h0, h1, h2, h3]
    ring
  rw [Geo.locVol, this, Nat.mul_div_cancel_left _ hp]

theorem bordDirVol_eq {mu : Dir} (h : 1 < g.R mu) :
    g.bordDirVol mu = volR (dirs.filter (fun nu => nu ≠ mu)).reverse g.loc := by
  rw [Geo.bordDirVol, Geo.isPar, if_pos (by simpa using h), locVol_eq ok]
  refine Nat.div_eq_of_eq_mul_left (loc_pos ok mu) ?_
  fin_cases mu <;> simp [volOfLx, dirs, volR] <;> ring

theorem edgeDirVol_eq {e : Edge} (h1 : 1 < g.R (edgeDirs e).1) (h2 : 1 < g.R (edgeDirs e).2) :
    g.edgeDirVol e = volR (dirs.filter (fun nu => nu ≠ (edgeDirs e).1 ∧ nu ≠ (edgeDirs e).2)).reverse g.loc := by
  rw [Geo.edgeDirVol, Geo.isPar, Geo.isPar, if_pos (by simp [h1, h2]), bordDirVol_eq ok h1]
  refine Nat.div_eq_of_eq_mul_left (loc_pos ok _) ?_
  fin_cases e <;> simp [edgeDirs, dirs, volR] <;> ring

theorem pl_inside {x : ICoords} {mu : Dir} (h : Inside g x mu) : (g.pseudoLoc x mu : Int) = x mu := by
  rw [pseudoLoc_eq (L_pos ok)]
  have := loc_le_L ok mu
  obtain ⟨h1, h2⟩ := h
  rw [Int.emod_eq_of_lt h1 (by omega)]; omega

theorem pl_dw {x : ICoords} {mu : Dir} (h : x mu = -1) : (g.pseudoLoc x mu : Int) = g.L mu - 1 := by
  rw [pseudoLoc_eq (L_pos ok), h]
  have := L_pos ok mu
  have h2 : (-1 : Int) % (g.L mu : Int) = g.L mu - 1 := by
    rw [← Int.add_emod_right, Int.emod_eq_of_lt (by omega) (by omega)]; omega
  rw [h2]; omega

theorem pl_up {x : ICoords} {mu : Dir} (hp : 1 < g.R mu) (h : x mu = g.loc mu) : (g.pseudoLoc x mu : Int) = g.loc mu := by
  rw [pseudoLoc_eq (L_pos ok), h]
  have := two_loc_le_L ok hp
  have := loc_pos ok mu
  rw [Int.emod_eq_of_lt (by omega) (by omega)]; omega

theorem isBord_inside {x : ICoords} {mu : Dir} (h : Inside g x mu) : g.isBord (g.pseudoLoc x) mu = 0 := by
  have hp := pl_inside ok h
  obtain ⟨h1, h2⟩ := h
  unfold Geo.isBord Geo.isPar
  split
  · rename_i hR
    have := two_loc_le_L ok (by simpa using hR)
    have := loc_pos ok mu
    rw [if_neg (by omega), if_neg (by omega)]
  · rfl

theorem isBord_dw {x : ICoords} {mu : Dir} (hp : 1 < g.R mu) (h : x mu = -1) : g.isBord (g.pseudoLoc x) mu = -1 := by
  have h1 := pl_dw ok h
  unfold Geo.isBord Geo.isPar
  have := two_loc_le_L ok hp
  have := ok.loc_ge mu
  rw [if_pos (by simpa using hp), if_neg (by omega), if_pos (by omega)]

theorem isBord_up {x : ICoords} {mu : Dir} (hp : 1 < g.R mu) (h : x mu = g.loc mu) : g.isBord (g.pseudoLoc x) mu = 1 := by
  have h1 := pl_up ok hp h
  unfold Geo.isBord Geo.isPar
  rw [if_pos (by simpa using hp), if_pos (by omega)]

theorem isLoc_false_of_out {x : ICoords} {mu : Dir} (hp : 1 < g.R mu) (h : x mu = -1 ∨ x mu = g.loc mu) :
    g.isLoc (g.pseudoLoc x) = false := by
  unfold Geo.isLoc
  rw [List.all_eq_false]
  refine ⟨mu, mem_dirs mu, ?_⟩
  have := two_loc_le_L ok hp
  have := loc_pos ok mu
  rcases h with h | h
  · have := pl_dw ok h; simp; omega
  · have := pl_up ok hp h; simp; omega

theorem fullLx_loc {x : ICoords} (h : ∀ mu, Inside g x mu) :
    g.fullLx x = some ((lxOfCoord (fun mu => (x mu).toNat) g.loc : Nat) : Int) := by
  have hx : g.pseudoLoc x = fun mu => (x mu).toNat := by
    funext mu; have := pl_inside ok (h mu); have := (h mu).1; omega
  unfold Geo.fullLx
  simp only
  rw [if_pos, hx]
  unfold Geo.isLoc
  rw [List.all_eq_true]
  intro mu _
  have := pl_inside ok (h mu); have := (h mu).2
  simp; omega

end

/-- +1 in the second half for forward borders -/
def oriOf (g : Geo) (x : ICoords) (mu : Dir) : Nat := if x mu = g.loc mu then 1 else 0

theorem bordIdx_congr {s : Coords} {x y : Coords} {mu : Dir} (h : ∀ nu, nu ≠ mu → x nu = y nu) :
    bordlxOfCoord s x mu = bordlxOfCoord s y mu := by
  unfold bordlxOfCoord
  rw [mix_eq_mixR, mix_eq_mixR]
  refine mixR_congr (fun d hd => h d ?_)
  simpa using (List.mem_filter.1 (List.mem_reverse.1 hd)).2

theorem edgeIdx_congr {s : Coords} {x y : Coords} {mu nu : Dir} (h : ∀ rho, rho ≠ mu → rho ≠ nu → x rho = y rho) :
    edgelxOfCoord s x mu nu = edgelxOfCoord s y mu nu := by
  unfold edgelxOfCoord
  rw [mix_eq_mixR, mix_eq_mixR]
  refine mixR_congr (fun d hd => ?_)
  have := (List.mem_filter.1 (List.mem_reverse.1 hd)).2
  simp at this
  exact h d this.1 this.2

/-- abstract evaluation of the border loop from the `is_bord` flags -/
theorem bordLoop {y : Coords} {mu : Dir} (hmu : g.isBord y mu = -1 ∨ g.isBord y mu = 1)
    (hnu : ∀ nu, nu ≠ mu → g.isBord y nu = 0) :
    dirs.findSome? (g.bordCase y) = some (some ((g.locVol + (if g.isBord y mu = 1 then g.bordVol / 2 else 0) +
      g.bordOffset mu + bordlxOfCoord g.loc y mu : Nat) : Int)) := by
  have other : ∀ nu, nu ≠ mu → g.bordCase y nu = none := by
    intro nu hn; unfold Geo.bordCase; rw [if_neg]; simp [hnu nu hn]
  have this : g.bordCase y mu = some (some ((g.locVol + (if g.isBord y mu = 1 then g.bordVol / 2 else 0) +
      g.bordOffset mu + bordlxOfCoord g.loc y mu : Nat) : Int)) := by
    unfold Geo.bordCase
    rw [if_pos]
    · rcases hmu with h | h <;> simp [h]
    · refine ⟨by rcases hmu with h | h <;> simp [h], ?_⟩
      rw [List.all_eq_true]
      intro nu hn
      have : nu ≠ mu := by clear hmu hnu other; revert hn; revert mu nu; decide
      simp [hnu nu this]
  unfold dirs
  fin_cases mu <;> simp_all [List.findSome?_cons]

theorem bordLoop_none {y : Coords} {mu nu : Dir} (hne : mu ≠ nu) (h1 : g.isBord y mu ≠ 0) (h2 : g.isBord y nu ≠ 0) :
    dirs.findSome? (g.bordCase y) = none := by
  rw [List.findSome?_eq_none_iff]
  intro rho _
  unfold Geo.bordCase
  rw [if_neg]
  rintro ⟨_, ha⟩
  rw [List.all_eq_true] at ha
  have : mu ∈ perpDirs rho ∨ nu ∈ perpDirs rho := by
    have key : ∀ mu nu rho : Dir, mu ≠ nu → mu ∈ perpDirs rho ∨ nu ∈ perpDirs rho := by decide
    exact key mu nu rho hne
  rcases this with h | h
  · have := ha _ h; simp at this; exact h1 this
  · have := ha _ h; simp at this; exact h2 this

/-- abstract evaluation of the edge loop from the `is_bord` flags -/
theorem edgeLoop {y : Coords} {e : Edge}
    (h1 : g.isBord y (edgeDirs e).1 = -1 ∨ g.isBord y (edgeDirs e).1 = 1)
    (h2 : g.isBord y (edgeDirs e).2 = -1 ∨ g.isBord y (edgeDirs e).2 = 1)
    (h3 : ∀ nu, nu ≠ (edgeDirs e).1 → nu ≠ (edgeDirs e).2 → g.isBord y nu = 0) :
    edgeTriples.findSome? (fun t => g.edgeCase y t.1 t.2.1 t.2.2) =
      some (some ((g.locVol + g.bordVol + g.edgeOffset e +
        g.edgeQuarter (2 * (if g.isBord y (edgeDirs e).1 = 1 then 1 else 0) + (if g.isBord y (edgeDirs e).2 = 1 then 1 else 0))
        + edgelxOfCoord g.loc y (edgeDirs e).1 (edgeDirs e).2 : Nat) : Int)) := by
  have hL : edgeTriples = [(0,1,[2,3]),(0,2,[1,3]),(0,3,[1,2]),(1,0,[2,3]),(1,2,[0,3]),(1,3,[0,2]),
    (2,0,[1,3]),(2,1,[0,3]),(2,3,[0,1]),(3,0,[1,2]),(3,1,[0,2]),(3,2,[0,1])] := by decide
  rw [hL]
  have hd : ∃ a b, edgeDirs e = (a, b) := ⟨_, _, rfl⟩
  obtain ⟨a, b, hab⟩ := hd
  rw [hab] at h1 h2 h3 ⊢
  have z0 := h3 0; have z1 := h3 1; have z2 := h3 2; have z3 := h3 3
  clear h3
  fin_cases e <;> (injection hab with ha hb; subst ha; subst hb) <;>
    simp only [ne_eq, not_true_eq_false, not_false_eq_true, forall_const, IsEmpty.forall_iff, Fin.reduceEq] at z0 z1 z2 z3 <;>
     rcases h1 with h1 | h1 <;> rcases h2 with h2 | h2 <;>
       simp [List.findSome?_cons, Geo.edgeCase, edgeNumb, h1, h2, *]

theorem edgeLoop_none {y : Coords} {a b c : Dir} (hab : a ≠ b) (hac : a ≠ c) (hbc : b ≠ c)
    (h1 : g.isBord y a ≠ 0) (h2 : g.isBord y b ≠ 0) (h3 : g.isBord y c ≠ 0) :
    edgeTriples.findSome? (fun t => g.edgeCase y t.1 t.2.1 t.2.2) = none := by
  rw [List.findSome?_eq_none_iff]
  intro t ht
  unfold Geo.edgeCase
  simp only
  rw [if_neg]
  rintro ⟨_, _, ha⟩
  rw [List.all_eq_true] at ha
  have : a ∈ t.2.2 ∨ b ∈ t.2.2 ∨ c ∈ t.2.2 := by
    have key : ∀ t ∈ edgeTriples, ∀ a b c : Dir, a ≠ b → a ≠ c → b ≠ c → (a ∈ t.2.2 ∨ b ∈ t.2.2 ∨ c ∈ t.2.2) := by
      decide +kernel
    exact key t ht a b c hab hac hbc
  rcases this with h | h | h
  · have := ha _ h; simp at this; exact h1 this
  · have := ha _ h; simp at this; exact h2 this
  · have := ha _ h; simp at this; exact h3 this

end Nissa.Lx
