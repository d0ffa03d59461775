/- Helper lemmas for the even/odd geometry. -/
import Verif.Geometry.EvenOdd
import Verif.Geometry.PropsHalo

set_option linter.all false
namespace Nissa.Lx
open Geo
variable {g : Geo}

theorem fastest (ds : List Dir) (hne : ds ≠ []) (hnd : ds.Nodup) (s : Coords) (he : ∀ d, s d % 2 = 0) :
    ∃ f ∈ ds, (∀ x, mix ds s x % 2 = x f % 2) ∧
      ∀ x y, y f = x f + 1 → (∀ d ∈ ds, d ≠ f → y d = x d) → mix ds s y = mix ds s x + 1 := by
  have hr : ds.reverse ≠ [] := by simpa using hne
  have hrn : ds.reverse.Nodup := List.nodup_reverse.2 hnd
  have key : ∀ l : List Dir, l ≠ [] → l.Nodup → ∃ f ∈ l, (∀ x, mixR l s x % 2 = x f % 2) ∧
      ∀ x y, y f = x f + 1 → (∀ d ∈ l, d ≠ f → y d = x d) → mixR l s y = mixR l s x + 1 := by
    intro l hl hn
    cases l with
    | nil => exact absurd rfl hl
    | cons f l =>
      refine ⟨f, List.mem_cons_self .., fun x => ?_, fun x y hy hd => ?_⟩
      · simp only [mixR]
        rw [Nat.add_mod, Nat.mul_mod, he f]; simp
      · simp only [mixR]
        have hf : f ∉ l := (List.nodup_cons.1 hn).1
        rw [mixR_congr (x := y) (y := x) (fun d hdl => hd d (List.mem_cons_of_mem _ hdl) (fun h => hf (h ▸ hdl))), hy]
        omega
  obtain ⟨f, hf, h1, h2⟩ := key _ hr hrn
  refine ⟨f, List.mem_reverse.1 hf, fun x => ?_, fun x y hy hd => ?_⟩
  · rw [mix_eq_mixR]; exact h1 x
  · rw [mix_eq_mixR, mix_eq_mixR]; exact h2 x y hy (fun d hd' => hd d (List.mem_reverse.1 hd'))

/-- sum of the coordinates -/
def sumZ (x : ICoords) : Int := x 0 + x 1 + x 2 + x 3

theorem sumZ_shift (x : ICoords) (mu : Dir) (d : Int) : sumZ (shift x mu d) = sumZ x + d := by
  unfold sumZ shift
  fin_cases mu <;> simp [Function.update_apply] <;> ring

section
variable (ok : g.Ok) (eo : EoOk g)
include ok eo

theorem torus_parity (r : Coords) (x : ICoords) : coordParity (torus g r x) = (sumZ x % 2).toNat := by
  have key : ∀ mu, ∃ q : Int, (torus g r x mu : Int) = x mu + 2 * q := by
    intro mu
    rw [torus_cast ok]
    obtain ⟨m, hm⟩ : ∃ m, g.loc mu = 2 * m := ⟨g.loc mu / 2, by have := eo mu; omega⟩
    have hL : (g.L mu : Int) = g.R mu * g.loc mu := by rw [L_eq ok]; push_cast; rfl
    refine ⟨r mu * m - g.R mu * m * ((x mu + r mu * g.loc mu) / g.L mu), ?_⟩
    rw [Int.emod_def]
    have : (x mu + r mu * g.loc mu) - g.L mu * ((x mu + r mu * g.loc mu) / g.L mu)
      = x mu + r mu * g.loc mu - (g.R mu * g.loc mu) * ((x mu + r mu * g.loc mu) / g.L mu) := by rw [← hL]
    rw [this]
    generalize (x mu + r mu * g.loc mu) / g.L mu = Q
    have hm' : (g.loc mu : Int) = 2 * m := by rw [hm]; push_cast; rfl
    rw [hm']; ring
  obtain ⟨a, ha⟩ := key 0; obtain ⟨b, hb⟩ := key 1; obtain ⟨c, hc⟩ := key 2; obtain ⟨d, hd⟩ := key 3
  unfold coordParity sumZ dirs
  simp only [List.foldl_cons, List.foldl_nil]
  omega

theorem parity_idx (r : Coords) {x : ICoords} (h : Ext g x) (hn : nOut g x ≤ 2) :
    loclxParity g r (idx g x) = some (sumZ x % 2).toNat := by
  unfold loclxParity
  rw [glbCoord_table ok r h hn, Option.map_some, torus_parity ok eo]

theorem even_volR {ds : List Dir} (h : ds ≠ []) : volR ds g.loc % 2 = 0 := by
  cases ds with
  | nil => exact absurd rfl h
  | cons d l => simp only [volR]; rw [Nat.mul_mod, eo d]; simp

omit ok eo in
theorem bordDirs_ne (mu : Dir) : dirs.filter (fun nu => nu ≠ mu) ≠ [] ∧ (dirs.filter (fun nu => nu ≠ mu)).Nodup := by revert mu; decide
omit ok eo in
theorem edgeDirsl_ne (e : Edge) : dirs.filter (fun nu => nu ≠ (edgeDirs e).1 ∧ nu ≠ (edgeDirs e).2) ≠ [] ∧
    (dirs.filter (fun nu => nu ≠ (edgeDirs e).1 ∧ nu ≠ (edgeDirs e).2)).Nodup := by revert e; decide

theorem dcOk2 : DcOk g 2 := by
  refine ⟨by omega, fun mu => ?_, fun e => ?_⟩
  · by_cases h : 1 < g.R mu
    · rw [bordDirVol_eq ok h]
      exact Nat.dvd_of_mod_eq_zero (even_volR ok eo (by have := (bordDirs_ne mu).1; simpa using this))
    · rw [Geo.bordDirVol, if_neg (by simpa [Geo.isPar] using h)]; exact Nat.dvd_zero _
  · by_cases h : 1 < g.R (edgeDirs e).1 ∧ 1 < g.R (edgeDirs e).2
    · rw [edgeDirVol_eq ok h.1 h.2]
      refine Nat.dvd_of_mod_eq_zero (even_volR ok eo ?_)
      intro hh; exact (edgeDirsl_ne e).1 (List.reverse_eq_nil_iff.1 hh)
    · rw [Geo.edgeDirVol, if_neg (by simpa [Geo.isPar] using h)]; exact Nat.dvd_zero _

theorem even_locVol : 2 ∣ g.locVol := by
  rw [locVol_eq ok]
  unfold volOfLx dirs
  simp only [List.foldl_cons, List.foldl_nil, Nat.one_mul]
  exact Nat.dvd_mul_left_of_dvd (Nat.dvd_of_mod_eq_zero (eo 3)) _

theorem even_edgeVolq : 2 ∣ edgeVolq g := dvd_foldl_add _ (fun a _ => (dcOk2 ok eo).2.2 a) _ (Nat.dvd_zero _)
theorem even_edgeOffset (e : Edge) : 2 ∣ g.edgeOffset e := dvd_foldl_add _ (fun a _ => (dcOk2 ok eo).2.2 a) _ (Nat.dvd_zero _)

theorem allVol_even : allVol g = 2 * (allVol g / 2) := by
  have h1 := even_locVol ok eo
  have h2 : g.bordVol = 2 * g.bordVolh := rfl
  have h3 : g.edgeVol = 4 * edgeVolq g := rfl
  unfold allVol; omega

omit ok eo in
theorem nat_shift {x : ICoords} {f : Dir} (h : 0 ≤ x f) : nat (shift x f 1) f = nat x f + 1 := by
  unfold nat shift; rw [Function.update_self]; omega
omit ok eo in
theorem nat_shift_ne {x : ICoords} {f d : Dir} (h : d ≠ f) : nat (shift x f 1) d = nat x d := by
  unfold nat shift; rw [Function.update_of_ne h]

omit ok eo in
theorem inside_shift {x : ICoords} {f : Dir} (hi : Inside g x f) (h1 : x f + 1 < g.loc f) (d : Dir) (hd : Inside g x d) :
    Inside g (shift x f 1) d := by
  by_cases h : d = f
  · subst h; unfold Inside shift at *; rw [Function.update_self]; omega
  · unfold Inside shift at *; rw [Function.update_of_ne h]; exact hd

/-- the sites 2k and 2k+1 differ by one step -/
theorem pair {i : Nat} (hi : 2 * i + 1 < allVol g) :
    ∃ x f, (Ext g x ∧ nOut g x ≤ 2 ∧ idx g x = 2 * i) ∧ (Ext g (shift x f 1) ∧ nOut g (shift x f 1) ≤ 2 ∧ idx g (shift x f 1) = 2 * i + 1) := by
  have e1 := even_locVol ok eo
  have e2 : g.bordVol = 2 * g.bordVolh := rfl
  have e3 : g.edgeVol = 4 * edgeVolq g := rfl
  unfold allVol at hi
  by_cases hl : 2 * i < g.locVol
  · obtain ⟨x, hx, he⟩ := idx_surj_loc ok hl
    obtain ⟨f, hf, h1, h2⟩ := fastest dirs (by decide) (by decide) g.loc eo
    have hxf := hx f
    have hev := he
    rw [idx_loc ok hx] at hev
    have hp := h1 (nat x)
    have hloc := eo f
    have hi0 := hxf.1
    have hin : x f + 1 < g.loc f := by
      have hlt := hxf.2
      have : nat x f % 2 = 0 := by
        rw [← hp]; unfold lxOfCoord at hev; rw [hev]; omega
      unfold nat at this; omega
    have hy : ∀ d, Inside g (shift x f 1) d := fun d => inside_shift hxf hin d (hx d)
    refine ⟨x, f, ⟨ext_inside hx, by rw [nOut_inside hx]; omega, he⟩, ext_inside hy, by rw [nOut_inside hy]; omega, ?_⟩
    rw [idx_loc ok hy, ← he, idx_loc ok hx]
    exact h2 _ _ (nat_shift hi0) (fun d _ hd => nat_shift_ne hd)
  by_cases hb : 2 * i < g.locVol + g.bordVol
  · obtain ⟨x, mu, hx, he⟩ := idx_surj_bord ok (i := 2 * i - g.locVol) (by omega)
    replace he : idx g x = 2 * i := by omega
    obtain ⟨f, hf, h1, h2⟩ := fastest _ (bordDirs_ne mu).1 (bordDirs_ne mu).2 g.loc eo
    have hfm : f ≠ mu := by simpa using (List.mem_filter.1 hf).2
    have hxf := hx.2 f hfm
    have hev := he
    rw [idx_bord ok hx] at hev
    have b1 := dvd_bordOffset (dcOk2 ok eo) mu
    have b2 := dvd_bordVolh (dcOk2 ok eo)
    have b3 : 2 ∣ oriOf g x mu * g.bordVolh := Nat.dvd_mul_left_of_dvd b2 _
    have hp : bordSub g x mu % 2 = nat x f % 2 := h1 (nat x)
    have hloc := eo f
    have hi0 := hxf.1
    have hin : x f + 1 < g.loc f := by
      have hlt := hxf.2
      have : nat x f % 2 = 0 := by rw [← hp]; omega
      unfold nat at this; omega
    have hsm : shift x f 1 mu = x mu := by unfold shift; rw [Function.update_of_ne hfm.symm]
    have hy : OneOut g (shift x f 1) mu := ⟨⟨hx.1.1, by rw [hsm]; exact hx.1.2⟩, fun nu hn => inside_shift hxf hin nu (hx.2 nu hn)⟩
    refine ⟨x, f, ⟨ext_oneOut hx, by rw [nOut_oneOut hx]; omega, he⟩, ext_oneOut hy, by rw [nOut_oneOut hy]; omega, ?_⟩
    have ho : oriOf g (shift x f 1) mu = oriOf g x mu := by unfold oriOf; rw [hsm]
    have hs : bordSub g (shift x f 1) mu = bordSub g x mu + 1 := h2 _ _ (nat_shift hi0) (fun d _ hd => nat_shift_ne hd)
    rw [idx_bord ok hy, ho, hs, ← hev]; omega
  · obtain ⟨x, e, hx, he⟩ := idx_surj_edge ok (i := 2 * i - g.locVol - g.bordVol) (by omega)
    replace he : idx g x = 2 * i := by omega
    obtain ⟨f, hf, h1, h2⟩ := fastest _ (edgeDirsl_ne e).1 (edgeDirsl_ne e).2 g.loc eo
    have hfm : f ≠ (edgeDirs e).1 ∧ f ≠ (edgeDirs e).2 := by simpa using (List.mem_filter.1 hf).2
    have hxf := hx.2.2 f hfm.1 hfm.2
    have hev := he
    rw [idx_edge ok hx] at hev
    have b1 := even_edgeOffset ok eo e
    have b2 := even_edgeVolq ok eo
    have b3 : 2 ∣ (2 * oriOf g x (edgeDirs e).1 + oriOf g x (edgeDirs e).2) * edgeVolq g := Nat.dvd_mul_left_of_dvd b2 _
    have hp : edgeSub g x e % 2 = nat x f % 2 := h1 (nat x)
    have hloc := eo f
    have hi0 := hxf.1
    have hin : x f + 1 < g.loc f := by
      have hlt := hxf.2
      have : nat x f % 2 = 0 := by rw [← hp]; omega
      unfold nat at this; omega
    have hs1 : shift x f 1 (edgeDirs e).1 = x (edgeDirs e).1 := by unfold shift; rw [Function.update_of_ne hfm.1.symm]
    have hs2 : shift x f 1 (edgeDirs e).2 = x (edgeDirs e).2 := by unfold shift; rw [Function.update_of_ne hfm.2.symm]
    have hy : TwoOut g (shift x f 1) e := ⟨⟨hx.1.1, by rw [hs1]; exact hx.1.2⟩, ⟨hx.2.1.1, by rw [hs2]; exact hx.2.1.2⟩,
      fun nu hn hn' => inside_shift hxf hin nu (hx.2.2 nu hn hn')⟩
    refine ⟨x, f, ⟨ext_twoOut hx, by rw [nOut_twoOut hx], he⟩, ext_twoOut hy, by rw [nOut_twoOut hy], ?_⟩
    have ho1 : oriOf g (shift x f 1) (edgeDirs e).1 = oriOf g x (edgeDirs e).1 := by unfold oriOf; rw [hs1]
    have ho2 : oriOf g (shift x f 1) (edgeDirs e).2 = oriOf g x (edgeDirs e).2 := by unfold oriOf; rw [hs2]
    have hs : edgeSub g (shift x f 1) e = edgeSub g x e + 1 := h2 _ _ (nat_shift hi0) (fun d _ hd => nat_shift_ne hd)
    rw [idx_edge ok hy, ho1, ho2, hs, ← hev]; omega

end

/-! ### the labelling loop -/

/-- parities come in opposite pairs -/
def Paired (par : Nat → Option Nat) (M : Nat) : Prop :=
  ∀ k, k < M → ∃ p, p < 2 ∧ par (2 * k) = some p ∧ par (2 * k + 1) = some (1 - p)

theorem eoLoop {par : Nat → Option Nat} {M : Nat} (h : Paired par M) (n : Nat) (hn : n ≤ M) :
    let t := (List.range (2 * n)).foldl (eoStep par) ⟨fun _ => 0, fun _ => none, fun _ _ => none⟩
    (∀ p, p < 2 → t.cnt p = n) ∧ (∀ l, l < 2 * n → t.loceo l = some (l / 2)) ∧
      (∀ l, l < 2 * n → ∀ p, par l = some p → t.loclx p (l / 2) = some l) := by
  induction n with
  | zero => simp
  | succ n ih =>
    obtain ⟨h1, h2, h3⟩ := ih (by omega)
    rw [show 2 * (n + 1) = 2 * n + 1 + 1 by ring, List.range_succ, List.range_succ, List.foldl_append, List.foldl_append]
    generalize (List.range (2 * n)).foldl (eoStep par) ⟨fun _ => 0, fun _ => none, fun _ _ => none⟩ = t at h1 h2 h3 ⊢
    obtain ⟨p, hp, q1, q2⟩ := h n (by omega)
    simp only [List.foldl_cons, List.foldl_nil]
    have hne : 1 - p ≠ p := by omega
    have c0 := h1 p hp
    have c1 := h1 (1 - p) (by omega)
    have E : eoStep par (eoStep par t (2 * n)) (2 * n + 1) = {
        loceo := Function.update (Function.update t.loceo (2 * n) (some n)) (2 * n + 1) (some n)
        loclx := Function.update (Function.update t.loclx p (Function.update (t.loclx p) n (some (2 * n)))) (1 - p)
          (Function.update (t.loclx (1 - p)) n (some (2 * n + 1)))
        cnt := Function.update (Function.update t.cnt p (n + 1)) (1 - p) (n + 1) } := by
      simp only [eoStep, q1, q2, Function.update_of_ne hne, c0, c1]
    rw [E]
    refine ⟨fun q hq => ?_, fun l hl => ?_, fun l hl q hq => ?_⟩
    · simp only [Function.update_apply]
      split
      · rfl
      · rw [if_pos (by omega)]
    · simp only [Function.update_apply]
      split
      · rename_i hh; subst hh; congr 1; omega
      split
      · rename_i hh; subst hh; congr 1; omega
      · exact h2 l (by omega)
    · simp only
      by_cases hl2 : l < 2 * n
      · have hq' := h3 l hl2 q hq
        have hne2 : l / 2 ≠ n := by omega
        by_cases a : q = 1 - p
        · subst a; rw [Function.update_self, Function.update_of_ne hne2]; exact hq'
        · rw [Function.update_of_ne a]
          by_cases b : q = p
          · subst b; rw [Function.update_self, Function.update_of_ne hne2]; exact hq'
          · rw [Function.update_of_ne b]; exact hq'
      · have : l = 2 * n ∨ l = 2 * n + 1 := by omega
        rcases this with rfl | rfl
        · rw [q1] at hq; cases hq
          rw [Function.update_of_ne hne.symm, Function.update_self, show 2 * n / 2 = n by omega, Function.update_self]
        · rw [q2] at hq; cases hq
          rw [Function.update_self, show (2 * n + 1) / 2 = n by omega, Function.update_self]

section
variable (ok : g.Ok) (eo : EoOk g)
include ok eo

theorem paired (r : Coords) : Paired (loclxParity g r) (allVol g / 2) := by
  intro k hk
  obtain ⟨x, f, ⟨h1, h2, h3⟩, h4, h5, h6⟩ := pair ok eo (i := k) (by omega)
  refine ⟨(sumZ x % 2).toNat, by omega, ?_, ?_⟩
  · rw [← h3]; exact parity_idx ok eo r h1 h2
  · rw [← h6, parity_idx ok eo r h4 h5, sumZ_shift]
    congr 1; omega

theorem parity_def (r : Coords) {l : Nat} (hl : l < allVol g) : ∃ p, p < 2 ∧ loclxParity g r l = some p := by
  obtain ⟨p, hp, h1, h2⟩ := paired ok eo r (l / 2) (by have := allVol_even ok eo; omega)
  have : l = 2 * (l / 2) ∨ l = 2 * (l / 2) + 1 := by omega
  rcases this with h | h
  · exact ⟨p, hp, by rw [h]; exact h1⟩
  · exact ⟨1 - p, by omega, by rw [h]; exact h2⟩

theorem loceo_eq (r : Coords) {l : Nat} (hl : l < allVol g) : loceoOfLoclx g r l = some (l / 2) := by
  have hev := allVol_even ok eo
  have := (eoLoop (paired ok eo r) (allVol g / 2) (Nat.le_refl _)).2.1 l (by omega)
  rw [← hev] at this
  exact this

theorem loclx_eq (r : Coords) {l p : Nat} (hl : l < allVol g) (hp : loclxParity g r l = some p) :
    loclxOfLoceo g r p (l / 2) = some l := by
  have hev := allVol_even ok eo
  have := (eoLoop (paired ok eo r) (allVol g / 2) (Nat.le_refl _)).2.2 l (by omega) p hp
  rw [← hev] at this
  exact this

/-- the site of given parity in a pair -/
theorem site_of (r : Coords) {p e : Nat} (hp : p < 2) (he : e < allVol g / 2) :
    ∃ l, l < allVol g ∧ loclxParity g r l = some p ∧ l / 2 = e ∧ loclxOfLoceo g r p e = some l := by
  obtain ⟨q, hq, h1, h2⟩ := paired ok eo r e he
  have hev := allVol_even ok eo
  have key : ∃ l, l < allVol g ∧ loclxParity g r l = some p ∧ l / 2 = e := by
    by_cases h : q = p
    · subst h; exact ⟨2 * e, by omega, h1, by omega⟩
    · exact ⟨2 * e + 1, by omega, by rw [h2]; congr 1; omega, by omega⟩
  obtain ⟨l, a, b, c⟩ := key
  exact ⟨l, a, b, c, by rw [← c]; exact loclx_eq ok eo r a b⟩

/-- two sites of a pair have different parities, hence parity and half index determine the site -/
theorem eo_inj (r : Coords) {l l' p : Nat} (hl : l < allVol g) (hl' : l' < allVol g) (h : loclxParity g r l = some p)
    (h' : loclxParity g r l' = some p) (he : l / 2 = l' / 2) : l = l' := by
  have a := loclx_eq ok eo r hl h
  have b := loclx_eq ok eo r hl' h'
  rw [he] at a; rw [a] at b; exact Option.some.inj b

end
end Nissa.Lx
