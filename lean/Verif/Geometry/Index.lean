/- Helper lemmas: closed form, range, injectivity and surjectivity of the extended index. -/
import Verif.Geometry.Lemmas

namespace Nissa.Lx
open Geo
variable {g : Geo}

/-- offsets of consecutive blocks determine the block -/
theorem bordOffset_decode {m n : Dir} {i j : Nat} (hi : i < g.bordDirVol m) (hj : j < g.bordDirVol n)
    (h : g.bordOffset m + i = g.bordOffset n + j) : m = n ∧ i = j := by
  have : m = n := by
    fin_cases m <;> fin_cases n <;> simp [bordOffset, dirs] at * <;> omega
  subst this
  exact ⟨rfl, by omega⟩

theorem bordOffset_le {m : Dir} : g.bordOffset m + g.bordDirVol m ≤ g.bordVolh := by
  fin_cases m <;> simp [bordOffset, bordVolh, dirs] <;> omega

theorem bordOffset_cover {i : Nat} (h : i < g.bordVolh) : ∃ m j, j < g.bordDirVol m ∧ i = g.bordOffset m + j := by
  simp [bordVolh, dirs] at h
  by_cases h0 : i < g.bordDirVol 0
  · exact ⟨0, i, h0, by simp [bordOffset]⟩
  by_cases h1 : i < g.bordDirVol 0 + g.bordDirVol 1
  · exact ⟨1, i - g.bordDirVol 0, by omega, by simp [bordOffset, dirs]; omega⟩
  by_cases h2 : i < g.bordDirVol 0 + g.bordDirVol 1 + g.bordDirVol 2
  · exact ⟨2, i - (g.bordDirVol 0 + g.bordDirVol 1), by omega, by simp [bordOffset, dirs]; omega⟩
  · exact ⟨3, i - (g.bordDirVol 0 + g.bordDirVol 1 + g.bordDirVol 2), by omega, by simp [bordOffset, dirs]; omega⟩

theorem edgeOffset_decode {m n : Edge} {i j : Nat} (hi : i < g.edgeDirVol m) (hj : j < g.edgeDirVol n)
    (h : g.edgeOffset m + i = g.edgeOffset n + j) : m = n ∧ i = j := by
  have : m = n := by
    fin_cases m <;> fin_cases n <;> simp [edgeOffset, edges] at * <;> omega
  subst this
  exact ⟨rfl, by omega⟩

/-- a quarter of the edge volume -/
def edgeVolq (g : Geo) : Nat := (edges.map g.edgeDirVol).foldl (· + ·) 0

theorem edgeVol_eq : g.edgeVol = 4 * edgeVolq g := rfl

theorem edgeQuarter_eq (k : Nat) : g.edgeQuarter k = k * edgeVolq g := by
  unfold Geo.edgeQuarter
  rw [edgeVol_eq]
  refine Nat.div_eq_of_eq_mul_left (by omega) (by ring)

theorem edgeOffset_le {m : Edge} : g.edgeOffset m + g.edgeDirVol m ≤ edgeVolq g := by
  fin_cases m <;> simp [edgeOffset, edgeVolq, edges] <;> omega

theorem edgeOffset_cover {i : Nat} (h : i < edgeVolq g) : ∃ m j, j < g.edgeDirVol m ∧ i = g.edgeOffset m + j := by
  simp [edgeVolq, edges] at h
  by_cases h0 : i < g.edgeDirVol 0
  · exact ⟨0, i, h0, by simp [edgeOffset]⟩
  by_cases h1 : i < g.edgeDirVol 0 + g.edgeDirVol 1
  · exact ⟨1, i - g.edgeDirVol 0, by omega, by simp [edgeOffset, edges]; omega⟩
  by_cases h2 : i < g.edgeDirVol 0 + g.edgeDirVol 1 + g.edgeDirVol 2
  · exact ⟨2, i - (g.edgeDirVol 0 + g.edgeDirVol 1), by omega, by simp [edgeOffset, edges]; omega⟩
  by_cases h3 : i < g.edgeDirVol 0 + g.edgeDirVol 1 + g.edgeDirVol 2 + g.edgeDirVol 3
  · exact ⟨3, i - (g.edgeDirVol 0 + g.edgeDirVol 1 + g.edgeDirVol 2), by omega, by simp [edgeOffset, edges]; omega⟩
  by_cases h4 : i < g.edgeDirVol 0 + g.edgeDirVol 1 + g.edgeDirVol 2 + g.edgeDirVol 3 + g.edgeDirVol 4
  · exact ⟨4, i - (g.edgeDirVol 0 + g.edgeDirVol 1 + g.edgeDirVol 2 + g.edgeDirVol 3), by omega, by simp [edgeOffset, edges]; omega⟩
  · exact ⟨5, i - (g.edgeDirVol 0 + g.edgeDirVol 1 + g.edgeDirVol 2 + g.edgeDirVol 3 + g.edgeDirVol 4), by omega,
      by simp [edgeOffset, edges]; omega⟩

/-- out of the box by one along a parallel direction -/
def Out (g : Geo) (x : ICoords) (mu : Dir) : Prop := 1 < g.R mu ∧ (x mu = -1 ∨ x mu = g.loc mu)

theorem Out.not_inside {x : ICoords} {mu : Dir} (h : Out g x mu) : ¬ Inside g x mu := by
  unfold Inside; rcases h.2 with h | h <;> omega

/-- exactly one direction out -/
def OneOut (g : Geo) (x : ICoords) (mu : Dir) : Prop := Out g x mu ∧ ∀ nu, nu ≠ mu → Inside g x nu

/-- exactly the two directions of an edge out -/
def TwoOut (g : Geo) (x : ICoords) (e : Edge) : Prop :=
  Out g x (edgeDirs e).1 ∧ Out g x (edgeDirs e).2 ∧ ∀ nu, nu ≠ (edgeDirs e).1 → nu ≠ (edgeDirs e).2 → Inside g x nu

/-- natural coordinates -/
def nat (x : ICoords) : Coords := fun mu => (x mu).toNat

/-- index in the border block -/
def bordSub (g : Geo) (x : ICoords) (mu : Dir) : Nat := bordlxOfCoord g.loc (nat x) mu
def edgeSub (g : Geo) (x : ICoords) (e : Edge) : Nat := edgelxOfCoord g.loc (nat x) (edgeDirs e).1 (edgeDirs e).2

theorem edge_ne (e : Edge) : (edgeDirs e).1 ≠ (edgeDirs e).2 := by revert e; decide

section
variable (ok : g.Ok)
include ok

theorem isBord_out {x : ICoords} {mu : Dir} (h : Out g x mu) :
    g.isBord (g.pseudoLoc x) mu = if x mu = g.loc mu then 1 else -1 := by
  rcases h.2 with h2 | h2
  · rw [isBord_dw ok h.1 h2, if_neg (by omega)]
  · rw [isBord_up ok h.1 h2, if_pos h2]

theorem isBord_out' {x : ICoords} {mu : Dir} (h : Out g x mu) :
    g.isBord (g.pseudoLoc x) mu = -1 ∨ g.isBord (g.pseudoLoc x) mu = 1 := by
  rw [isBord_out ok h]; split <;> simp

theorem pl_nat {x : ICoords} {mu : Dir} (h : Inside g x mu) : g.pseudoLoc x mu = nat x mu := by
  have := pl_inside ok h; have := h.1; unfold nat; omega

theorem fullLx_bord {x : ICoords} {mu : Dir} (h : OneOut g x mu) :
    g.fullLx x = some ((g.locVol + oriOf g x mu * g.bordVolh + g.bordOffset mu + bordSub g x mu : Nat) : Int) := by
  have hl := isLoc_false_of_out ok h.1.1 h.1.2
  unfold Geo.fullLx
  simp only [hl, Bool.false_eq_true, if_false]
  rw [bordLoop (isBord_out' ok h.1) (fun nu hn => isBord_inside ok (h.2 nu hn)), isBord_out ok h.1]
  have : bordlxOfCoord g.loc (g.pseudoLoc x) mu = bordSub g x mu :=
    bordIdx_congr (fun nu hn => pl_nat ok (h.2 nu hn))
  rw [this]
  have hb : g.bordVol / 2 = g.bordVolh := by unfold Geo.bordVol; omega
  rw [hb]
  unfold oriOf
  by_cases hx : x mu = g.loc mu <;> simp [hx]

theorem fullLx_edge {x : ICoords} {e : Edge} (h : TwoOut g x e) :
    g.fullLx x = some ((g.locVol + g.bordVol + g.edgeOffset e +
      (2 * oriOf g x (edgeDirs e).1 + oriOf g x (edgeDirs e).2) * edgeVolq g + edgeSub g x e : Nat) : Int) := by
  have hl := isLoc_false_of_out ok h.1.1 h.1.2
  have h1 := isBord_out' ok h.1
  have h2 := isBord_out' ok h.2.1
  unfold Geo.fullLx
  simp only [hl, Bool.false_eq_true, if_false]
  rw [bordLoop_none (mu := (edgeDirs e).1) (nu := (edgeDirs e).2) (edge_ne e) (by omega) (by omega)]
  simp only
  rw [edgeLoop h1 h2 (fun nu ha hb => isBord_inside ok (h.2.2 nu ha hb)), isBord_out ok h.1, isBord_out ok h.2.1]
  have : edgelxOfCoord g.loc (g.pseudoLoc x) (edgeDirs e).1 (edgeDirs e).2 = edgeSub g x e :=
    edgeIdx_congr (fun nu ha hb => pl_nat ok (h.2.2 nu ha hb))
  rw [this, edgeQuarter_eq]
  unfold oriOf
  congr 3
  have e1 : ∀ p : Prop, [Decidable p] → ((if p then (1:Int) else -1) = 1) = p := by
    intro p _; by_cases h : p <;> simp [h]
  simp only [e1]

theorem fullLx_three {x : ICoords} {a b c : Dir} (hab : a ≠ b) (hac : a ≠ c) (hbc : b ≠ c)
    (h1 : Out g x a) (h2 : Out g x b) (h3 : Out g x c) : g.fullLx x = some (-1) := by
  have hl := isLoc_false_of_out ok h1.1 h1.2
  have k1 := isBord_out' ok h1
  have k2 := isBord_out' ok h2
  have k3 := isBord_out' ok h3
  unfold Geo.fullLx
  simp only [hl, Bool.false_eq_true, if_false]
  rw [bordLoop_none hab (by omega) (by omega)]
  simp only
  rw [edgeLoop_none hab hac hbc (by omega) (by omega) (by omega)]

theorem bordSub_lt {x : ICoords} {mu : Dir} (h : OneOut g x mu) : bordSub g x mu < g.bordDirVol mu := by
  rw [bordDirVol_eq ok h.1.1, bordSub, bordlxOfCoord, mix_eq_mixR]
  refine mixR_lt (fun d hd => ?_)
  have hd := (List.mem_filter.1 (List.mem_reverse.1 hd)).2
  have := h.2 d (by simpa using hd)
  unfold Inside at this; unfold nat; omega

theorem edgeSub_lt {x : ICoords} {e : Edge} (h : TwoOut g x e) : edgeSub g x e < g.edgeDirVol e := by
  rw [edgeDirVol_eq ok h.1.1 h.2.1.1, edgeSub, edgelxOfCoord, mix_eq_mixR]
  refine mixR_lt (fun d hd => ?_)
  have hd := (List.mem_filter.1 (List.mem_reverse.1 hd)).2
  simp at hd
  have := h.2.2 d hd.1 hd.2
  unfold Inside at this; unfold nat; omega

theorem bordSub_inj {x y : ICoords} {mu : Dir} (hx : OneOut g x mu) (hy : OneOut g y mu)
    (h : bordSub g x mu = bordSub g y mu) (ho : oriOf g x mu = oriOf g y mu) : x = y := by
  rw [bordSub, bordSub, bordlxOfCoord, bordlxOfCoord, mix_eq_mixR, mix_eq_mixR] at h
  have key := mixR_inj (fun d hd => ?_) (fun d hd => ?_) h
  · funext d
    by_cases hd : d = mu
    · subst hd
      have h1 := hx.1.2; have h2 := hy.1.2
      have := loc_pos ok d
      unfold oriOf at ho
      split at ho <;> split at ho <;> omega
    · have := key d (by simpa using ⟨mem_dirs d, hd⟩)
      have h1 := hx.2 d hd; have h2 := hy.2 d hd
      unfold Inside at h1 h2; unfold nat at this; omega
  · have hd := (List.mem_filter.1 (List.mem_reverse.1 hd)).2
    have := hx.2 d (by simpa using hd)
    unfold Inside at this; unfold nat; omega
  · have hd := (List.mem_filter.1 (List.mem_reverse.1 hd)).2
    have := hy.2 d (by simpa using hd)
    unfold Inside at this; unfold nat; omega

theorem edgeSub_inj {x y : ICoords} {e : Edge} (hx : TwoOut g x e) (hy : TwoOut g y e)
    (h : edgeSub g x e = edgeSub g y e) (h1 : oriOf g x (edgeDirs e).1 = oriOf g y (edgeDirs e).1)
    (h2 : oriOf g x (edgeDirs e).2 = oriOf g y (edgeDirs e).2) : x = y := by
  rw [edgeSub, edgeSub, edgelxOfCoord, edgelxOfCoord, mix_eq_mixR, mix_eq_mixR] at h
  have ori : ∀ d, Out g x d → Out g y d → oriOf g x d = oriOf g y d → x d = y d := by
    intro d hx hy ho
    have h1 := hx.2; have h2 := hy.2
    have := loc_pos ok d
    unfold oriOf at ho
    split at ho <;> split at ho <;> omega
  have key := mixR_inj (fun d hd => ?_) (fun d hd => ?_) h
  · funext d
    by_cases hd : d = (edgeDirs e).1
    · subst hd; exact ori _ hx.1 hy.1 h1
    by_cases hd' : d = (edgeDirs e).2
    · subst hd'; exact ori _ hx.2.1 hy.2.1 h2
    · have := key d (by simpa using ⟨mem_dirs d, hd, hd'⟩)
      have h1 := hx.2.2 d hd hd'; have h2 := hy.2.2 d hd hd'
      unfold Inside at h1 h2; unfold nat at this; omega
  · have hd := (List.mem_filter.1 (List.mem_reverse.1 hd)).2
    simp at hd
    have := hx.2.2 d hd.1 hd.2
    unfold Inside at this; unfold nat; omega
  · have hd := (List.mem_filter.1 (List.mem_reverse.1 hd)).2
    simp at hd
    have := hy.2.2 d hd.1 hd.2
    unfold Inside at this; unfold nat; omega

omit ok in
theorem ext_out {x : ICoords} (h : Ext g x) {mu : Dir} (hn : ¬ Inside g x mu) : Out g x mu :=
  (h mu).resolve_left hn

omit ok in
/-- every extended coordinate is of one of the four classes -/
theorem ext_cases {x : ICoords} (h : Ext g x) :
    ((∀ mu, Inside g x mu) ∧ nOut g x = 0) ∨ (∃ mu, OneOut g x mu ∧ nOut g x = 1) ∨ (∃ e, TwoOut g x e ∧ nOut g x = 2) ∨
    (∃ a b c, a ≠ b ∧ a ≠ c ∧ b ≠ c ∧ Out g x a ∧ Out g x b ∧ Out g x c ∧ 3 ≤ nOut g x) := by
  have o : ∀ mu, ¬ Inside g x mu → Out g x mu := fun mu hn => ext_out h hn
  have allD : ∀ P : Dir → Prop, P 0 → P 1 → P 2 → P 3 → ∀ d, P d := by
    intro P a b c d e; fin_cases e <;> assumption
  by_cases h0 : Inside g x 0 <;> by_cases h1 : Inside g x 1 <;> by_cases h2 : Inside g x 2 <;> by_cases h3 : Inside g x 3 <;>
    simp only [nOut, dirs, List.countP_cons, List.countP_nil, h0, h1, h2, h3, not_true_eq_false, not_false_eq_true, decide_true, decide_false]
  · exact .inl ⟨allD _ h0 h1 h2 h3, rfl⟩
  · exact .inr (.inl ⟨3, ⟨o _ h3, allD _ (fun _ => h0) (fun _ => h1) (fun _ => h2) (fun h => absurd rfl h)⟩, rfl⟩)
  · exact .inr (.inl ⟨2, ⟨o _ h2, allD _ (fun _ => h0) (fun _ => h1) (fun h => absurd rfl h) (fun _ => h3)⟩, rfl⟩)
  · exact .inr (.inr (.inl ⟨5, ⟨o _ h2, o _ h3, allD _ (fun _ _ => h0) (fun _ _ => h1) (fun h => absurd rfl h) (fun _ h => absurd rfl h)⟩, rfl⟩))
  · exact .inr (.inl ⟨1, ⟨o _ h1, allD _ (fun _ => h0) (fun h => absurd rfl h) (fun _ => h2) (fun _ => h3)⟩, rfl⟩)
  · exact .inr (.inr (.inl ⟨4, ⟨o _ h1, o _ h3, allD _ (fun _ _ => h0) (fun h => absurd rfl h) (fun _ _ => h2) (fun _ h => absurd rfl h)⟩, rfl⟩))
  · exact .inr (.inr (.inl ⟨3, ⟨o _ h1, o _ h2, allD _ (fun _ _ => h0) (fun h => absurd rfl h) (fun _ h => absurd rfl h) (fun _ _ => h3)⟩, rfl⟩))
  · exact .inr (.inr (.inr ⟨1, 2, 3, by decide, by decide, by decide, o _ h1, o _ h2, o _ h3, by simp⟩))
  · exact .inr (.inl ⟨0, ⟨o _ h0, allD _ (fun h => absurd rfl h) (fun _ => h1) (fun _ => h2) (fun _ => h3)⟩, rfl⟩)
  · exact .inr (.inr (.inl ⟨2, ⟨o _ h0, o _ h3, allD _ (fun h => absurd rfl h) (fun _ _ => h1) (fun _ _ => h2) (fun _ h => absurd rfl h)⟩, rfl⟩))
  · exact .inr (.inr (.inl ⟨1, ⟨o _ h0, o _ h2, allD _ (fun h => absurd rfl h) (fun _ _ => h1) (fun _ h => absurd rfl h) (fun _ _ => h3)⟩, rfl⟩))
  · exact .inr (.inr (.inr ⟨0, 2, 3, by decide, by decide, by decide, o _ h0, o _ h2, o _ h3, by simp⟩))
  · exact .inr (.inr (.inl ⟨0, ⟨o _ h0, o _ h1, allD _ (fun h => absurd rfl h) (fun _ h => absurd rfl h) (fun _ _ => h2) (fun _ _ => h3)⟩, rfl⟩))
  · exact .inr (.inr (.inr ⟨0, 1, 3, by decide, by decide, by decide, o _ h0, o _ h1, o _ h3, by simp⟩))
  · exact .inr (.inr (.inr ⟨0, 1, 2, by decide, by decide, by decide, o _ h0, o _ h1, o _ h2, by simp⟩))
  · exact .inr (.inr (.inr ⟨0, 1, 2, by decide, by decide, by decide, o _ h0, o _ h1, o _ h2, by simp⟩))

end
end Nissa.Lx
