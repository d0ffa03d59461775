/- Helper lemmas on the geometry tables. -/
import Verif.Geometry.Tables
import Verif.Geometry.Index

set_option linter.all false
namespace Nissa.Lx
open Geo

theorem writeLoop_spec {A V : Type} (key : A → Option Nat) (val : A → V) (l : List A) (t0 : Nat → Option V) (i : Nat) :
    (∀ v, (∃ a ∈ l, key a = some i) → (∀ a ∈ l, key a = some i → val a = v) → writeLoop key val l t0 i = some v) ∧
    ((∀ a ∈ l, key a ≠ some i) → writeLoop key val l t0 i = t0 i) := by
  induction l generalizing t0 with
  | nil => simp [writeLoop]
  | cons a l ih =>
    have step : writeLoop key val (a :: l) t0 = writeLoop key val l (match key a with
      | some i => Function.update t0 i (some (val a))
      | none => t0) := rfl
    rw [step]
    constructor
    · rintro v ⟨b, hb, hkb⟩ hall
      by_cases hex : ∃ c ∈ l, key c = some i
      · exact (ih _).1 v hex (fun c hc hk => hall c (List.mem_cons_of_mem _ hc) hk)
      · push Not at hex
        rw [(ih _).2 hex]
        have hba : b = a := by
          rcases List.mem_cons.1 hb with h | h
          · exact h
          · exact absurd hkb (hex b h)
        subst hba
        rw [hkb]
        simp [hall b (List.mem_cons_self ..) hkb]
    · intro hall
      rw [(ih _).2 (fun c hc => hall c (List.mem_cons_of_mem _ hc))]
      have := hall a (List.mem_cons_self ..)
      cases hk : key a with
      | none => rfl
      | some j =>
        simp only
        rw [Function.update_of_ne]
        rintro rfl; exact this hk

variable {g : Geo}

/-- value of the index of a coordinate, `0` when not available -/
def idx (g : Geo) (x : ICoords) : Nat := ((g.fullLx x).getD 0).toNat

section
variable (ok : g.Ok)
include ok

/-- the classes with the corresponding ranges -/
theorem idx_spec {x : ICoords} (h : Ext g x) (hn : nOut g x ≤ 2) : g.fullLx x = some ((idx g x : Nat) : Int) := by
  rcases ext_cases h with ⟨h1, _⟩ | ⟨mu, h1, _⟩ | ⟨e, h1, _⟩ | ⟨a, b, c, _, _, _, _, _, _, h3⟩
  · unfold idx; rw [fullLx_loc ok h1]; rfl
  · unfold idx; rw [fullLx_bord ok h1]; rfl
  · unfold idx; rw [fullLx_edge ok h1]; rfl
  · omega

theorem idx_loc {x : ICoords} (h : ∀ mu, Inside g x mu) : idx g x = lxOfCoord (nat x) g.loc := by
  unfold idx; rw [fullLx_loc ok h]; rfl

theorem idx_loc_lt {x : ICoords} (h : ∀ mu, Inside g x mu) : idx g x < g.locVol := by
  rw [idx_loc ok h, locVol_eq ok]
  refine lxOfCoord_lt (fun d => ?_)
  have := h d; unfold Inside at this; unfold nat; omega

theorem idx_bord {x : ICoords} {mu : Dir} (h : OneOut g x mu) :
    idx g x = g.locVol + oriOf g x mu * g.bordVolh + g.bordOffset mu + bordSub g x mu := by
  unfold idx; rw [fullLx_bord ok h]; rfl

theorem idx_edge {x : ICoords} {e : Edge} (h : TwoOut g x e) :
    idx g x = g.locVol + g.bordVol + g.edgeOffset e +
      (2 * oriOf g x (edgeDirs e).1 + oriOf g x (edgeDirs e).2) * edgeVolq g + edgeSub g x e := by
  unfold idx; rw [fullLx_edge ok h]; rfl

omit ok in
theorem oriOf_le (x : ICoords) (mu : Dir) : oriOf g x mu ≤ 1 := by unfold oriOf; split <;> omega

theorem idx_bord_range {x : ICoords} {mu : Dir} (h : OneOut g x mu) :
    g.locVol ≤ idx g x ∧ idx g x < g.locVol + g.bordVol := by
  have h1 := bordSub_lt ok h
  have h2 := bordOffset_le (g := g) (m := mu)
  have h3 : g.bordVol = 2 * g.bordVolh := rfl
  rw [idx_bord ok h]
  have := oriOf_le (g := g) x mu
  rcases Nat.le_one_iff_eq_zero_or_eq_one.1 this with h | h <;> rw [h] <;> omega

theorem idx_edge_range {x : ICoords} {e : Edge} (h : TwoOut g x e) :
    g.locVol + g.bordVol ≤ idx g x ∧ idx g x < g.locVol + g.bordVol + g.edgeVol := by
  have h1 := edgeSub_lt ok h
  have h2 := edgeOffset_le (g := g) (m := e)
  have h3 : g.edgeVol = 4 * edgeVolq g := rfl
  rw [idx_edge ok h]
  rcases Nat.le_one_iff_eq_zero_or_eq_one.1 (oriOf_le (g := g) x (edgeDirs e).1) with h | h <;>
  rcases Nat.le_one_iff_eq_zero_or_eq_one.1 (oriOf_le (g := g) x (edgeDirs e).2) with h' | h' <;> rw [h, h'] <;> omega

theorem idx_inj {x y : ICoords} (hx : Ext g x) (hnx : nOut g x ≤ 2) (hy : Ext g y) (hny : nOut g y ≤ 2)
    (h : idx g x = idx g y) : x = y := by
  rcases ext_cases hx with ⟨h1, _⟩ | ⟨mu, h1, _⟩ | ⟨e, h1, _⟩ | ⟨a, b, c, _, _, _, _, _, _, h3⟩
  · have l1 := idx_loc_lt ok h1
    rcases ext_cases hy with ⟨h2, _⟩ | ⟨nu, h2, _⟩ | ⟨e', h2, _⟩ | ⟨a, b, c, _, _, _, _, _, _, h3⟩
    · rw [idx_loc ok h1, idx_loc ok h2] at h
      have := lxOfCoord_inj (fun d => ?_) (fun d => ?_) h
      · funext d
        have h3 := congrFun this d
        have h4 := h1 d; have h5 := h2 d; unfold Inside at h4 h5; unfold nat at h3; omega
      · have := h1 d; unfold Inside at this; unfold nat; omega
      · have := h2 d; unfold Inside at this; unfold nat; omega
    · have := idx_bord_range ok h2; omega
    · have := idx_edge_range ok h2; omega
    · omega
  · have l1 := idx_bord_range ok h1
    rcases ext_cases hy with ⟨h2, _⟩ | ⟨nu, h2, _⟩ | ⟨e', h2, _⟩ | ⟨a, b, c, _, _, _, _, _, _, h3⟩
    · have := idx_loc_lt ok h2; omega
    · rw [idx_bord ok h1, idx_bord ok h2] at h
      have b1 := bordSub_lt ok h1; have b2 := bordSub_lt ok h2
      have o1 := bordOffset_le (g := g) (m := mu); have o2 := bordOffset_le (g := g) (m := nu)
      have ho : oriOf g x mu = oriOf g y nu := by
        rcases Nat.le_one_iff_eq_zero_or_eq_one.1 (oriOf_le (g := g) x mu) with k | k <;>
        rcases Nat.le_one_iff_eq_zero_or_eq_one.1 (oriOf_le (g := g) y nu) with k' | k' <;> rw [k, k'] at h ⊢ <;> omega
      rw [ho] at h
      obtain ⟨rfl, hs⟩ := bordOffset_decode b1 b2 (by omega)
      exact bordSub_inj ok h1 h2 hs ho
    · have := idx_edge_range ok h2; omega
    · omega
  · have l1 := idx_edge_range ok h1
    rcases ext_cases hy with ⟨h2, _⟩ | ⟨nu, h2, _⟩ | ⟨e', h2, _⟩ | ⟨a, b, c, _, _, _, _, _, _, h3⟩
    · have := idx_loc_lt ok h2; omega
    · have := idx_bord_range ok h2; omega
    · rw [idx_edge ok h1, idx_edge ok h2] at h
      have b1 := edgeSub_lt ok h1; have b2 := edgeSub_lt ok h2
      have o1 := edgeOffset_le (g := g) (m := e); have o2 := edgeOffset_le (g := g) (m := e')
      have ho : oriOf g x (edgeDirs e).1 = oriOf g y (edgeDirs e').1 ∧ oriOf g x (edgeDirs e).2 = oriOf g y (edgeDirs e').2 := by
        rcases Nat.le_one_iff_eq_zero_or_eq_one.1 (oriOf_le (g := g) x (edgeDirs e).1) with k | k <;>
        rcases Nat.le_one_iff_eq_zero_or_eq_one.1 (oriOf_le (g := g) x (edgeDirs e).2) with l | l <;>
        rcases Nat.le_one_iff_eq_zero_or_eq_one.1 (oriOf_le (g := g) y (edgeDirs e').1) with k' | k' <;>
        rcases Nat.le_one_iff_eq_zero_or_eq_one.1 (oriOf_le (g := g) y (edgeDirs e').2) with l' | l' <;>
        rw [k, k', l, l'] at h ⊢ <;> first | exact ⟨rfl, rfl⟩ | (exfalso; omega)
      rw [ho.1, ho.2] at h
      obtain ⟨rfl, hs⟩ := edgeOffset_decode b1 b2 (by omega)
      exact edgeSub_inj ok h1 h2 hs ho.1 ho.2
    · omega
  · omega

theorem idx_surj_loc {i : Nat} (hi : i < g.locVol) : ∃ x, (∀ mu, Inside g x mu) ∧ idx g x = i := by
  rw [locVol_eq ok] at hi
  have := coordOfLx_spec (fun d => loc_pos ok d) hi
  have hx : ∀ mu, Inside g (fun mu => (coordOfLx i g.loc mu : Int)) mu := by
    intro mu; have := this.1 mu; simp only [Inside]; omega
  refine ⟨fun mu => (coordOfLx i g.loc mu : Int), hx, ?_⟩
  rw [idx_loc ok hx]; exact this.2

theorem idx_surj_bord {i : Nat} (hi : i < g.bordVol) : ∃ x mu, OneOut g x mu ∧ idx g x = g.locVol + i := by
  have hb : g.bordVol = 2 * g.bordVolh := rfl
  have : ∃ o j, o ≤ 1 ∧ j < g.bordVolh ∧ i = o * g.bordVolh + j := by
    by_cases h : i < g.bordVolh
    · exact ⟨0, i, by omega, h, by omega⟩
    · exact ⟨1, i - g.bordVolh, by omega, by omega, by omega⟩
  obtain ⟨o, j, ho, hj, rfl⟩ := this
  obtain ⟨mu, k, hk, rfl⟩ := bordOffset_cover hj
  have hp : 1 < g.R mu := by
    by_contra h
    unfold Geo.bordDirVol Geo.isPar at hk
    rw [if_neg (by simpa using h)] at hk; omega
  have hk' := hk
  rw [bordDirVol_eq ok hp] at hk'
  obtain ⟨y, hy, hm⟩ := mixR_surj (List.nodup_reverse.2 (List.Nodup.filter _ (by decide : dirs.Nodup)))
    (fun d _ => loc_pos ok d) hk'
  let x : ICoords := fun d => if d = mu then (if o = 1 then g.loc mu else -1) else y d
  have hx : OneOut g x mu := by
    refine ⟨⟨hp, ?_⟩, fun nu hn => ?_⟩
    · by_cases h1 : o = 1 <;> simp [x, h1]
    · have := hy nu (by simpa using ⟨mem_dirs nu, hn⟩)
      simp only [Inside, x, if_neg hn]; omega
  refine ⟨x, mu, hx, ?_⟩
  rw [idx_bord ok hx]
  have h1 : bordSub g x mu = k := by
    rw [bordSub, bordlxOfCoord, mix_eq_mixR, ← hm]
    refine mixR_congr (fun d hd => ?_)
    have : d ≠ mu := by simpa using (List.mem_filter.1 (List.mem_reverse.1 hd)).2
    simp [nat, x, this]
  have h2 : oriOf g x mu = o := by
    have := loc_pos ok mu
    rcases Nat.le_one_iff_eq_zero_or_eq_one.1 ho with h | h
    · subst h; simp [oriOf, x]
    · subst h; simp [oriOf, x]
  rw [h1, h2]; omega

theorem idx_surj_edge {i : Nat} (hi : i < g.edgeVol) : ∃ x e, TwoOut g x e ∧ idx g x = g.locVol + g.bordVol + i := by
  have hb : g.edgeVol = 4 * edgeVolq g := rfl
  have : ∃ o p j, o ≤ 1 ∧ p ≤ 1 ∧ j < edgeVolq g ∧ i = (2 * o + p) * edgeVolq g + j := by
    by_cases h : i < edgeVolq g
    · exact ⟨0, 0, i, by omega, by omega, h, by omega⟩
    by_cases h : i < 2 * edgeVolq g
    · exact ⟨0, 1, i - edgeVolq g, by omega, by omega, by omega, by omega⟩
    by_cases h : i < 3 * edgeVolq g
    · exact ⟨1, 0, i - 2 * edgeVolq g, by omega, by omega, by omega, by omega⟩
    · exact ⟨1, 1, i - 3 * edgeVolq g, by omega, by omega, by omega, by omega⟩
  obtain ⟨o, p, j, ho, hpp, hj, rfl⟩ := this
  obtain ⟨e, k, hk, rfl⟩ := edgeOffset_cover hj
  have hp : 1 < g.R (edgeDirs e).1 ∧ 1 < g.R (edgeDirs e).2 := by
    by_contra h
    unfold Geo.edgeDirVol Geo.isPar at hk
    rw [if_neg (by simpa using h)] at hk; omega
  have hk' := hk
  rw [edgeDirVol_eq ok hp.1 hp.2] at hk'
  obtain ⟨y, hy, hm⟩ := mixR_surj (List.nodup_reverse.2 (List.Nodup.filter _ (by decide : dirs.Nodup)))
    (fun d _ => loc_pos ok d) hk'
  have hne := edge_ne e
  let x : ICoords := fun d => if d = (edgeDirs e).1 then (if o = 1 then g.loc d else -1)
    else if d = (edgeDirs e).2 then (if p = 1 then g.loc d else -1) else y d
  have hx : TwoOut g x e := by
    refine ⟨⟨hp.1, ?_⟩, ⟨hp.2, ?_⟩, fun nu hn hn' => ?_⟩
    · by_cases h1 : o = 1 <;> simp [x, h1]
    · by_cases h1 : p = 1 <;> simp [x, h1, hne.symm]
    · have := hy nu (by simpa using ⟨mem_dirs nu, hn, hn'⟩)
      simp only [Inside, x, if_neg hn, if_neg hn']; omega
  refine ⟨x, e, hx, ?_⟩
  rw [idx_edge ok hx]
  have h1 : edgeSub g x e = k := by
    rw [edgeSub, edgelxOfCoord, mix_eq_mixR, ← hm]
    refine mixR_congr (fun d hd => ?_)
    have : d ≠ (edgeDirs e).1 ∧ d ≠ (edgeDirs e).2 := by simpa using (List.mem_filter.1 (List.mem_reverse.1 hd)).2
    simp [nat, x, this.1, this.2]
  have h2 : oriOf g x (edgeDirs e).1 = o := by
    have := loc_pos ok (edgeDirs e).1
    rcases Nat.le_one_iff_eq_zero_or_eq_one.1 ho with h | h
    · subst h; simp [oriOf, x]
    · subst h; simp [oriOf, x]
  have h3 : oriOf g x (edgeDirs e).2 = p := by
    have := loc_pos ok (edgeDirs e).2
    rcases Nat.le_one_iff_eq_zero_or_eq_one.1 hpp with h | h
    · subst h; simp [oriOf, x, hne.symm]
    · subst h; simp [oriOf, x, hne.symm]
  rw [h1, h2, h3]; omega

end
end Nissa.Lx
