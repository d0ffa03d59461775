/- Helper lemmas: contents of the tables and neighbours. -/
import Verif.Geometry.TableLemmas

set_option linter.all false
namespace Nissa.Lx
open Geo
variable {g : Geo}

theorem isPar_iff (mu : Dir) : g.isPar mu = true ↔ 1 < g.R mu := by simp [Geo.isPar]

section
variable (ok : g.Ok)
include ok

theorem extBoxSize_pos (mu : Dir) : 0 < extBoxSize g mu := by
  unfold extBoxSize; have := loc_pos ok mu; omega

theorem extX_ext {ivol : Nat} (h : ivol < volOfLx (extBoxSize g)) : Ext g (extX g ivol) := by
  intro mu
  have h1 := (coordOfLx_spec (extBoxSize_pos ok) h).1 mu
  unfold Inside extX
  generalize coordOfLx ivol (extBoxSize g) mu = c at *
  unfold extBoxSize at h1
  by_cases hp : 1 < g.R mu
  · rw [if_pos ((isPar_iff mu).2 hp)] at h1
    simp only [if_pos ((isPar_iff (g := g) mu).2 hp)] at *
    by_cases hc : c = 0
    · right; exact ⟨hp, by omega⟩
    · by_cases hc' : (c : Int) = g.loc mu + 1
      · right; exact ⟨hp, by omega⟩
      · left; omega
  · have hp' : ¬ g.isPar mu = true := fun h => hp ((isPar_iff mu).1 h)
    rw [if_neg hp'] at h1
    simp only [if_neg hp'] at *
    left; omega

theorem ext_extX {x : ICoords} (h : Ext g x) : ∃ ivol, ivol < volOfLx (extBoxSize g) ∧ extX g ivol = x := by
  let c : Coords := fun mu => (x mu + (if g.isPar mu then 1 else 0)).toNat
  have hb : ∀ mu, 0 ≤ x mu + (if g.isPar mu then 1 else 0) ∧ c mu < extBoxSize g mu := by
    intro mu
    have := loc_pos ok mu
    simp only [c, extBoxSize]
    rcases h mu with hi | ⟨hp, ho⟩
    · unfold Inside at hi; split <;> omega
    · rw [if_pos ((isPar_iff mu).2 hp)]
      simp only [if_pos ((isPar_iff mu).2 hp)]
      omega
  refine ⟨lxOfCoord c (extBoxSize g), lxOfCoord_lt (fun d => (hb d).2), ?_⟩
  funext mu
  unfold extX
  rw [coordOfLx_lxOfCoord (fun d => (hb d).2)]
  have := (hb mu).1
  simp only [c]; omega

theorem labelKey_of_ext {ivol : Nat} (hv : ivol < volOfLx (extBoxSize g)) :
    labelKey g ivol = if nOut g (extX g ivol) ≤ 2 then some (idx g (extX g ivol)) else none := by
  unfold labelKey
  by_cases hn : nOut g (extX g ivol) ≤ 2
  · rw [idx_spec ok (extX_ext ok hv) hn, if_pos hn]
    have : ((idx g (extX g ivol) : Nat) : Int) ≠ -1 := by omega
    simp [this]
  · rw [if_neg hn]
    rcases ext_cases (extX_ext ok hv) with ⟨_, h⟩ | ⟨_, _, h⟩ | ⟨_, _, h⟩ | ⟨a, b, c, hab, hac, hbc, h1, h2, h3, _⟩
    · omega
    · omega
    · omega
    · rw [fullLx_three ok hab hac hbc h1 h2 h3]; simp

/-- generic content of a table filled by label_all_sites -/
theorem label_table {V : Type} (val : ICoords → V) {x : ICoords} (h : Ext g x) (hn : nOut g x ≤ 2) (P : Nat → Bool)
    (hP : P (idx g x) = true) :
    writeLoop (fun ivol => (labelKey g ivol).bind (fun i => if P i then some i else none)) (fun ivol => val (extX g ivol))
      (List.range (volOfLx (extBoxSize g))) (fun _ => none) (idx g x) = some (val x) := by
  obtain ⟨iv, hiv, hx⟩ := ext_extX ok h
  refine (writeLoop_spec _ _ _ _ _).1 _ ⟨iv, List.mem_range.2 hiv, ?_⟩ ?_
  · rw [labelKey_of_ext ok hiv, hx, if_pos hn]; simp [hP]
  · intro a ha hk
    have ha := List.mem_range.1 ha
    rw [labelKey_of_ext ok ha] at hk
    by_cases hna : nOut g (extX g a) ≤ 2
    · rw [if_pos hna] at hk
      simp only [Option.bind_some] at hk
      split at hk
      · injection hk with hk
        rw [idx_inj ok (extX_ext ok ha) hna h hn hk]
      · exact absurd hk (by simp)
    · rw [if_neg hna] at hk; simp at hk

theorem glbCoordVal_eq (r : Coords) (x : ICoords) : glbCoordVal g r x = torus g r x := by
  funext mu; unfold glbCoordVal torus; rw [Int.add_emod_right]

theorem glbCoord_table (r : Coords) {x : ICoords} (h : Ext g x) (hn : nOut g x ≤ 2) :
    glbCoordOfLoclx g r (idx g x) = some (torus g r x) := by
  have := label_table ok (fun y => glbCoordVal g r y) h hn (fun _ => true) rfl
  rw [← glbCoordVal_eq ok, ← this]
  unfold glbCoordOfLoclx
  simp

omit ok in
theorem nOut_inside {x : ICoords} (h : ∀ mu, Inside g x mu) : nOut g x = 0 := by
  simp [nOut, h, List.countP_eq_zero]

omit ok in
theorem ext_inside {x : ICoords} (h : ∀ mu, Inside g x mu) : Ext g x := fun mu => .inl (h mu)

omit ok in
theorem ext_oneOut {x : ICoords} {mu : Dir} (h : OneOut g x mu) : Ext g x := fun nu => by
  by_cases hn : nu = mu
  · subst hn; exact .inr h.1
  · exact .inl (h.2 nu hn)

omit ok in
theorem ext_twoOut {x : ICoords} {e : Edge} (h : TwoOut g x e) : Ext g x := fun nu => by
  by_cases hn : nu = (edgeDirs e).1
  · subst hn; exact .inr h.1
  by_cases hn' : nu = (edgeDirs e).2
  · subst hn'; exact .inr h.2.1
  · exact .inl (h.2.2 nu hn hn')

omit ok in
theorem nOut_oneOut {x : ICoords} {mu : Dir} (h : OneOut g x mu) : nOut g x = 1 := by
  have h0 := h.1.not_inside
  have : ∀ nu, Inside g x nu ↔ nu ≠ mu := fun nu => ⟨fun hi hn => h0 (hn ▸ hi), h.2 nu⟩
  unfold nOut
  simp only [this]
  clear this h h0
  revert mu; decide

omit ok in
theorem nOut_twoOut {x : ICoords} {e : Edge} (h : TwoOut g x e) : nOut g x = 2 := by
  have h0 := h.1.not_inside
  have h1 := h.2.1.not_inside
  have : ∀ nu, Inside g x nu ↔ (nu ≠ (edgeDirs e).1 ∧ nu ≠ (edgeDirs e).2) :=
    fun nu => ⟨fun hi => ⟨fun hn => h0 (hn ▸ hi), fun hn => h1 (hn ▸ hi)⟩, fun hh => h.2.2 nu hh.1 hh.2⟩
  unfold nOut
  simp only [this]
  clear this h h0 h1
  revert e; decide

theorem locCoord_table {x : ICoords} (h : ∀ mu, Inside g x mu) : locCoordOfLoclx g (idx g x) = some x := by
  have := label_table ok (fun y => y) (ext_inside h) (by rw [nOut_inside h]; omega) (fun i => decide (i < g.locVol))
    (by simpa using idx_loc_lt ok h)
  rw [← this]
  unfold locCoordOfLoclx
  simp

theorem glblx_table (r : Coords) {x : ICoords} (h : ∀ mu, Inside g x mu) :
    glblxOfLoclx g r (idx g x) = some (lxOfCoord (torus g r x) g.L) := by
  have := label_table ok (fun y => lxOfCoord (glbCoordVal g r y) g.L) (ext_inside h) (by rw [nOut_inside h]; omega) (fun i => decide (i < g.locVol))
    (by simpa using idx_loc_lt ok h)
  rw [← glbCoordVal_eq ok, ← this]
  unfold glblxOfLoclx
  simp

/-- `fullLxOfCoords` depends only on the coordinates modulo the lattice -/
theorem fullLx_congr {x y : ICoords} (h : ∀ mu, x mu % (g.L mu : Int) = y mu % (g.L mu : Int)) : g.fullLx x = g.fullLx y := by
  have : g.pseudoLoc x = g.pseudoLoc y := by
    funext mu; rw [pseudoLoc_eq (L_pos ok), pseudoLoc_eq (L_pos ok), h mu]
  unfold Geo.fullLx; rw [this]

theorem torus_cast (r : Coords) (x : ICoords) (mu : Dir) :
    ((torus g r x mu : Nat) : Int) = (x mu + r mu * g.loc mu) % g.L mu := by
  unfold torus
  have := L_pos ok mu
  have := Int.emod_nonneg (x mu + r mu * g.loc mu) (b := (g.L mu : Int)) (by omega)
  omega

theorem neigh_eq (r : Coords) {x : ICoords} (h : Ext g x) (hn : nOut g x ≤ 2) (d : Int) (mu : Dir) :
    loclxNeigh g r d (idx g x) mu = g.fullLx (shift x mu d) := by
  unfold loclxNeigh
  rw [glbCoord_table ok r h hn]
  refine fullLx_congr ok (fun nu => ?_)
  have key : ∀ nu d', ((torus g r x nu : Int) - g.loc nu * r nu + d') % (g.L nu : Int) = (x nu + d') % (g.L nu : Int) := by
    intro nu d'
    rw [torus_cast ok]
    have e : (x nu + r nu * g.loc nu) % (g.L nu : Int) - g.loc nu * r nu + d' =
        (x nu + r nu * g.loc nu) % (g.L nu : Int) + (d' - g.loc nu * r nu) := by ring
    rw [e, Int.emod_add_emod]
    congr 1; ring
  by_cases hm : nu = mu
  · subst hm
    simp only [shift, Function.update_self]
    exact key nu d
  · simp only [shift, Function.update_of_ne hm]
    have := key nu 0
    simpa using this

/-- wrap a coordinate of a direction which is not split among ranks -/
theorem torus_congr (r : Coords) {x y : ICoords} (h : ∀ mu, x mu % (g.L mu : Int) = y mu % (g.L mu : Int)) : torus g r x = torus g r y := by
  funext mu
  have : (torus g r x mu : Int) = torus g r y mu := by
    rw [torus_cast ok, torus_cast ok, Int.add_emod, h mu, ← Int.add_emod]
  omega

theorem torus_shift (r : Coords) (x : ICoords) (mu : Dir) (d : Int) :
    torus g r (shift x mu d) = tshift g (torus g r x) mu d := by
  funext nu
  by_cases hm : nu = mu
  · subst hm
    unfold tshift
    rw [Function.update_self, torus_cast ok, Int.emod_add_emod]
    unfold torus shift
    rw [Function.update_self]
    congr 2; ring
  · unfold tshift torus shift
    rw [Function.update_of_ne hm, Function.update_of_ne hm]

/-- a step from a site which is inside along `mu` lands on an extended site, up to periodicity -/
theorem step_inside {x : ICoords} (h : Ext g x) {mu : Dir} (hi : Inside g x mu) {d : Int} (hd : d = 1 ∨ d = -1) :
    ∃ y, Ext g y ∧ (∀ nu, y nu % (g.L nu : Int) = (shift x mu d) nu % (g.L nu : Int)) ∧
      (∀ nu, nu ≠ mu → y nu = x nu) ∧ (1 < g.R mu → y mu = x mu + d) ∧ (¬ 1 < g.R mu → Inside g y mu) := by
  have hl := loc_pos ok mu
  by_cases hp : 1 < g.R mu
  · refine ⟨shift x mu d, fun nu => ?_, fun _ => rfl, fun nu hn => ?_, fun _ => ?_, fun hh => absurd hp hh⟩
    · by_cases hm : nu = mu
      · subst hm
        unfold Inside at hi ⊢
        unfold shift
        rw [Function.update_self]
        by_cases hc : 0 ≤ x nu + d ∧ x nu + d < g.loc nu
        · exact .inl hc
        · right; refine ⟨hp, ?_⟩; omega
      · unfold Inside shift; rw [Function.update_of_ne hm]; exact h nu
    · unfold shift; rw [Function.update_of_ne hn]
    · unfold shift; rw [Function.update_self]
  · have hR : g.R mu = 1 := by have := ok.R_pos mu; omega
    have hL : g.L mu = g.loc mu := by rw [L_eq ok, hR, Nat.one_mul]
    have hins : Inside g (Function.update x mu ((x mu + d) % (g.L mu : Int))) mu := by
      unfold Inside
      rw [Function.update_self, hL]
      exact ⟨Int.emod_nonneg _ (by omega), Int.emod_lt_of_pos _ (by omega)⟩
    refine ⟨Function.update x mu ((x mu + d) % (g.L mu : Int)), fun nu => ?_, fun nu => ?_, fun nu hn => ?_, fun hh => absurd hh hp, fun _ => hins⟩
    · by_cases hm : nu = mu
      · subst hm; exact .inl hins
      · unfold Inside; rw [Function.update_of_ne hm]; exact h nu
    · by_cases hm : nu = mu
      · subst hm; unfold shift; rw [Function.update_self, Function.update_self, Int.emod_emod_of_dvd _ (Int.dvd_refl _)]
      · unfold shift; rw [Function.update_of_ne hm, Function.update_of_ne hm]
    · rw [Function.update_of_ne hn]

omit ok in
theorem nOut_le_of_agree {x y : ICoords} {mu : Dir} (hi : Inside g x mu) (h : ∀ nu, nu ≠ mu → y nu = x nu) :
    nOut g y ≤ nOut g x + 1 := by
  have key : ∀ nu, nu ≠ mu → (decide (¬ Inside g y nu) = decide (¬ Inside g x nu)) := by
    intro nu hn
    have : Inside g y nu ↔ Inside g x nu := by unfold Inside; rw [h nu hn]
    simp only [this]
  have bd : ∀ nu, (if decide (¬ Inside g y nu) = true then 1 else 0) ≤ 1 := by intro nu; split <;> omega
  have b0 := bd 0; have b1 := bd 1; have b2 := bd 2; have b3 := bd 3
  unfold nOut dirs
  simp only [List.countP_cons, List.countP_nil]
  have h0 := key 0; have h1 := key 1; have h2 := key 2; have h3 := key 3
  have hx : decide (¬ Inside g x mu) = false := by simpa using hi
  fin_cases mu <;> simp only [ne_eq, not_true_eq_false, not_false_eq_true, forall_const, IsEmpty.forall_iff, Fin.reduceEq,
    Fin.zero_eta, Fin.mk_one, Fin.reduceFinMk, Fin.isValue] at h0 h1 h2 h3 hx ⊢ <;> simp only [h0, h1, h2, h3, hx] at * <;> omega

end
end Nissa.Lx
