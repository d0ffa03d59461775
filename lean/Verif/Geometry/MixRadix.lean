/- Helper lemmas on mixed radix indices. -/
import Verif.Geometry.Model
import Mathlib.Tactic.Ring
import Mathlib.Data.List.Nodup
import Mathlib.Tactic.FinCases

namespace Nissa.Lx

/-- `mix` on the reversed list, head = fastest direction -/
def mixR : List Dir → Coords → Coords → Nat
  | [], _, _ => 0
  | d :: ds, s, x => mixR ds s x * s d + x d

def volR : List Dir → Coords → Nat
  | [], _ => 1
  | d :: ds, s => volR ds s * s d

theorem mix_eq_mixR (ds : List Dir) (s x : Coords) : mix ds s x = mixR ds.reverse s x := by
  unfold mix
  rw [List.foldl_eq_foldr_reverse]
  induction ds.reverse with
  | nil => rfl
  | cons d l ih => simp [mixR, ih]

theorem mixR_lt {ds : List Dir} {s x : Coords} (h : ∀ d ∈ ds, x d < s d) : mixR ds s x < volR ds s := by
  induction ds with
  | nil => simp [mixR, volR]
  | cons d ds ih =>
    have h1 := ih (fun e he => h e (List.mem_cons_of_mem _ he))
    have h2 := h d (List.mem_cons_self ..)
    simp only [mixR, volR]
    calc mixR ds s x * s d + x d < mixR ds s x * s d + s d := by omega
      _ = (mixR ds s x + 1) * s d := by ring
      _ ≤ volR ds s * s d := Nat.mul_le_mul_right _ h1

theorem mixR_inj {ds : List Dir} {s x y : Coords} (hx : ∀ d ∈ ds, x d < s d) (hy : ∀ d ∈ ds, y d < s d)
    (h : mixR ds s x = mixR ds s y) : ∀ d ∈ ds, x d = y d := by
  induction ds with
  | nil => simp
  | cons d ds ih =>
    have hxd := hx d (List.mem_cons_self ..)
    have hyd := hy d (List.mem_cons_self ..)
    simp only [mixR] at h
    have e1 : x d = y d := by
      have := congrArg (· % s d) h
      simpa [Nat.add_mod, Nat.mod_eq_of_lt hxd, Nat.mod_eq_of_lt hyd] using this
    have e2 : mixR ds s x = mixR ds s y := by
      have : mixR ds s x * s d = mixR ds s y * s d := by omega
      exact Nat.eq_of_mul_eq_mul_right (by omega) this
    intro e he
    rcases List.mem_cons.1 he with rfl | he
    · exact e1
    · exact ih (fun e he => hx e (List.mem_cons_of_mem _ he)) (fun e he => hy e (List.mem_cons_of_mem _ he)) e2 e he

theorem mixR_congr {ds : List Dir} {s x y : Coords} (h : ∀ d ∈ ds, x d = y d) : mixR ds s x = mixR ds s y := by
  induction ds with
  | nil => rfl
  | cons d ds ih =>
    simp only [mixR]
    rw [ih (fun e he => h e (List.mem_cons_of_mem _ he)), h d (List.mem_cons_self ..)]

/-- surjectivity: every index below the volume is the index of in-range coordinates which vanish outside `ds` -/
theorem mixR_surj {ds : List Dir} (hnd : ds.Nodup) {s : Coords} (hs : ∀ d ∈ ds, 0 < s d) {i : Nat}
    (hi : i < volR ds s) : ∃ x : Coords, (∀ d ∈ ds, x d < s d) ∧ mixR ds s x = i := by
  induction ds generalizing i with
  | nil => exact ⟨fun _ => 0, by simp, by simp [mixR, volR] at *; omega⟩
  | cons d ds ih =>
    have hd := hs d (List.mem_cons_self ..)
    have hnd' := List.nodup_cons.1 hnd
    have : i / s d < volR ds s := by
      rw [Nat.div_lt_iff_lt_mul hd]; exact hi
    obtain ⟨x, hx, hm⟩ := ih hnd'.2 (fun e he => hs e (List.mem_cons_of_mem _ he)) this
    refine ⟨Function.update x d (i % s d), ?_, ?_⟩
    · intro e he
      by_cases hed : e = d
      · subst hed; simp [Nat.mod_lt _ hd]
      · rw [Function.update_of_ne hed]
        exact hx e ((List.mem_cons.1 he).resolve_left hed)
    · simp only [mixR, Function.update_self]
      rw [mixR_congr (y := x) (fun e he => Function.update_of_ne (by rintro rfl; exact hnd'.1 he) _ _), hm]
      exact Nat.div_add_mod' i (s d)

theorem coordFold_spec (s : Coords) (ds : List Dir) (hnd : ds.Nodup) (x : Coords) (i : Nat) (hs : ∀ d ∈ ds, 0 < s d)
    (hi : i < volR ds s) :
    let r := ds.foldl (coordStep s) (x, i)
    (∀ d ∈ ds, r.1 d < s d) ∧ mixR ds s r.1 = i ∧ (∀ d, d ∉ ds → r.1 d = x d) := by
  induction ds generalizing x i with
  | nil => simp [mixR, volR] at *; omega
  | cons d ds ih =>
    have hd := hs d (List.mem_cons_self ..)
    have hnd' := List.nodup_cons.1 hnd
    have hq : i / s d < volR ds s := by rw [Nat.div_lt_iff_lt_mul hd]; exact hi
    have := ih hnd'.2 (Function.update x d (i % s d)) (i / s d) (fun e he => hs e (List.mem_cons_of_mem _ he)) hq
    simp only [List.foldl_cons, coordStep] at this ⊢
    obtain ⟨h1, h2, h3⟩ := this
    have hd3 := h3 d hnd'.1
    simp only [Function.update_self] at hd3
    refine ⟨?_, ?_, ?_⟩
    · intro e he
      rcases List.mem_cons.1 he with rfl | he
      · rw [hd3]; exact Nat.mod_lt _ hd
      · exact h1 e he
    · simp only [mixR]; rw [h2, hd3]; exact Nat.div_add_mod' i (s d)
    · intro e he
      have hne : e ≠ d := fun h => he (h ▸ List.mem_cons_self ..)
      rw [h3 e (fun h => he (List.mem_cons_of_mem _ h)), Function.update_of_ne hne]

theorem volOfLx_eq (s : Coords) : volOfLx s = volR dirs.reverse s := by
  simp [volOfLx, dirs, volR]

theorem mem_dirs (d : Dir) : d ∈ dirs := by revert d; decide
theorem mem_dirs_rev (d : Dir) : d ∈ dirs.reverse := by revert d; decide
theorem dirs_rev_nodup : dirs.reverse.Nodup := by decide

theorem lxOfCoord_lt {x s : Coords} (h : ∀ d, x d < s d) : lxOfCoord x s < volOfLx s := by
  rw [lxOfCoord, mix_eq_mixR, volOfLx_eq]; exact mixR_lt (fun d _ => h d)

theorem lxOfCoord_inj {x y s : Coords} (hx : ∀ d, x d < s d) (hy : ∀ d, y d < s d)
    (h : lxOfCoord x s = lxOfCoord y s) : x = y := by
  rw [lxOfCoord, lxOfCoord, mix_eq_mixR, mix_eq_mixR] at h
  funext d
  exact mixR_inj (fun d _ => hx d) (fun d _ => hy d) h d (mem_dirs_rev d)

theorem coordOfLx_spec {s : Coords} (hs : ∀ d, 0 < s d) {i : Nat} (hi : i < volOfLx s) :
    (∀ d, coordOfLx i s d < s d) ∧ lxOfCoord (coordOfLx i s) s = i := by
  rw [volOfLx_eq] at hi
  have := coordFold_spec s dirs.reverse dirs_rev_nodup (fun _ => 0) i (fun d _ => hs d) hi
  refine ⟨fun d => this.1 d (mem_dirs_rev d), ?_⟩
  rw [lxOfCoord, mix_eq_mixR]; exact this.2.1

theorem coordOfLx_lxOfCoord {x s : Coords} (h : ∀ d, x d < s d) : coordOfLx (lxOfCoord x s) s = x := by
  have hs : ∀ d, 0 < s d := fun d => by have := h d; omega
  have := coordOfLx_spec hs (lxOfCoord_lt h)
  exact lxOfCoord_inj this.1 h this.2

end Nissa.Lx
