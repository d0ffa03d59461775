import Verif.Ib.PropsSource4

/-! # C74: average on the noise -/

set_option linter.all false

namespace Nissa.Src
open Nissa.Lx Nissa.Sten Nissa.Su3f Nissa.Gauge Nissa.Gamma Nissa.StD Nissa.Wilson Nissa.Contr Nissa.Vertex Nissa.Sitmo Matrix Complex

noncomputable section

/-! ### Ideal random numbers -/

/-- the numbers of a drawer: `2 M` values for each of the 24 reals of each of `V` points -/
abbrev Draws (M V : Nat) := Fin V × Fin 24 → Fin (2 * M)

/-- the numbers as fractions between 0 and 1 -/
def asDraw {M V : Nat} (w : Draws M V) (x i : Nat) : ℚ := if h : x < V ∧ i < 24 then ((w (⟨x, h.1⟩, ⟨i, h.2⟩)).val : ℚ) / (2 * M : Nat) else 0

/-- average on all the draws, equally likely: the numbers are uniform and independent -/
def E {M V : Nat} (f : Draws M V → ℂ) : ℂ := (∑ w, f w) / (Fintype.card (Draws M V) : ℂ)

theorem asDraw_range {M V : Nat} (hM : 0 < M) (w : Draws M V) (x i : Nat) : 0 ≤ asDraw w x i ∧ asDraw w x i < 1 := by
  unfold asDraw
  split
  · have h1 : ((2 * M : Nat) : ℚ) > 0 := by exact_mod_cast (by omega : 2 * M > 0)
    refine ⟨by positivity, ?_⟩
    rw [div_lt_one h1]
    exact_mod_cast (w _).isLt
  · norm_num

/-- the sign of one of the numbers -/
def sgn {M V : Nat} (w : Draws M V) (k : Fin V × Fin 24) : ℝ := if (w k).val < M then -1 else 1

theorem pm_asDraw {M V : Nat} (hM : 0 < M) (w : Draws M V) {x i : Nat} (hx : x < V) (hi : i < 24) : pm (asDraw w x i) = sgn w (⟨x, hx⟩, ⟨i, hi⟩) := by
  unfold pm asDraw sgn
  rw [dif_pos ⟨hx, hi⟩]
  have h1 : ((2 * M : Nat) : ℚ) > 0 := by exact_mod_cast (by omega : 2 * M > 0)
  have : ((w (⟨x, hx⟩, ⟨i, hi⟩)).val : ℚ) / (2 * M : Nat) < 1 / 2 ↔ (w (⟨x, hx⟩, ⟨i, hi⟩)).val < M := by
    rw [div_lt_iff₀ h1]
    push_cast
    rw [show (1 : ℚ) / 2 * (2 * M) = M by ring]
    exact Nat.cast_lt
  simp only [this]

/-- the draw with one number replaced by its reflection -/
def flip {M V : Nat} (k : Fin V × Fin 24) : Draws M V ≃ Draws M V := Equiv.piCongrRight fun j => if j = k then Fin.revPerm else Equiv.refl _

theorem sgn_flip {M V : Nat} (w : Draws M V) (k j : Fin V × Fin 24) : sgn (flip k w) j = if j = k then -sgn w j else sgn w j := by
  unfold sgn flip
  simp only [Equiv.piCongrRight_apply, Pi.map_apply]
  by_cases h : j = k
  · simp only [h, if_true]
    rw [Fin.revPerm_apply, Fin.val_rev]
    have := (w k).isLt
    by_cases h2 : (w k).val < M
    · rw [if_neg (by omega), if_pos h2]; norm_num
    · rw [if_pos (by omega), if_neg h2]
  · simp [h]

theorem sgn_sq {M V : Nat} (w : Draws M V) (k : Fin V × Fin 24) : sgn w k * sgn w k = 1 := by unfold sgn; split <;> norm_num

theorem card_pos {M V : Nat} (hM : 0 < M) : (Fintype.card (Draws M V) : ℂ) ≠ 0 := by
  have : Nonempty (Draws M V) := ⟨fun _ => ⟨0, by omega⟩⟩
  exact_mod_cast Fintype.card_ne_zero

theorem E_const {M V : Nat} (hM : 0 < M) (z : ℂ) : E (fun _ : Draws M V => z) = z := by
  unfold E
  rw [Finset.sum_const, Finset.card_univ, nsmul_eq_mul]
  exact mul_div_cancel_left₀ z (card_pos hM)

theorem E_sgn {M V : Nat} (hM : 0 < M) (k j : Fin V × Fin 24) : E (fun w : Draws M V => (sgn w k : ℂ) * (sgn w j : ℂ)) = if k = j then 1 else 0 := by
  by_cases h : k = j
  · subst h
    rw [if_pos rfl]
    have : (fun w : Draws M V => (sgn w k : ℂ) * (sgn w k : ℂ)) = fun _ => 1 := by
      funext w
      exact_mod_cast sgn_sq w k
    rw [this, E_const hM]
  · rw [if_neg h]
    unfold E
    have : ∑ w : Draws M V, (sgn w k : ℂ) * (sgn w j : ℂ) = -∑ w : Draws M V, (sgn w k : ℂ) * (sgn w j : ℂ) := by
      conv_lhs => rw [← Equiv.sum_comp (flip k)]
      rw [← Finset.sum_neg_distrib]
      refine Finset.sum_congr rfl fun w _ => ?_
      rw [sgn_flip, sgn_flip, if_pos rfl, if_neg (Ne.symm h)]
      push_cast
      ring
    rw [self_eq_neg.1 this, zero_div]

theorem E_add {M V : Nat} (f f' : Draws M V → ℂ) : E (fun w => f w + f' w) = E f + E f' := by
  unfold E; rw [Finset.sum_add_distrib, add_div]

theorem E_mul {M V : Nat} (z : ℂ) (f : Draws M V → ℂ) : E (fun w => z * f w) = z * E f := by
  unfold E; rw [← Finset.mul_sum, mul_div_assoc]

theorem E_sum {M V : Nat} {A : Type} (s : Finset A) (f : A → Draws M V → ℂ) : E (fun w => ∑ a ∈ s, f a w) = ∑ a ∈ s, E (f a) := by
  unfold E; rw [Finset.sum_comm, Finset.sum_div]

/-- volume of the lattice -/
def vol (L : Coords) : Nat := L 0 * L 1 * L 2 * L 3

theorem lx_lt {L c : Coords} (hc : c ∈ box L) : lxOfCoord c L < vol L := by
  have := lxOfCoord_lt (mem_box.1 hc)
  rwa [C01_volOfLx] at this

theorem key_eq {L c c' : Coords} (hc : c ∈ box L) (hc' : c' ∈ box L) (id id' : Fin 4) (ic ic' : Fin 3) (r r' : Fin 2) (h : 6 * id.val + 2 * ic.val + r.val < 24) (h' : 6 * id'.val + 2 * ic'.val + r'.val < 24) :
    ((⟨lxOfCoord c L, lx_lt hc⟩, ⟨6 * id.val + 2 * ic.val + r.val, h⟩) : Fin (vol L) × Fin 24) = (⟨lxOfCoord c' L, lx_lt hc'⟩, ⟨6 * id'.val + 2 * ic'.val + r'.val, h'⟩) ↔
      (c = c' ∧ id = id' ∧ ic = ic') ∧ r = r' := by
  rw [Prod.mk.injEq, Fin.mk.injEq, Fin.mk.injEq]
  constructor
  · rintro ⟨a, b⟩
    refine ⟨⟨lxOfCoord_inj (mem_box.1 hc) (mem_box.1 hc') a, Fin.ext (by omega), Fin.ext (by omega)⟩, Fin.ext (by omega)⟩
  · rintro ⟨⟨a, b, d⟩, e⟩
    subst a b d e
    exact ⟨rfl, rfl⟩

/-- **C74**.  Average on the noise: for Z2 and Z4 noise the components at different points, or different components, are not correlated, and each has modulus one -/
theorem C74_noise_average {M : Nat} (hM : 0 < M) {L : Coords} {nt : Rnd} (hn : nt = .z2 ∨ nt = .z4) {c c' : Coords} (hc : c ∈ box L) (hc' : c' ∈ box L) (id id' : Fin 4) (ic ic' : Fin 3) :
    E (fun w : Draws M (vol L) => star (eta L nt (asDraw w) c id ic) * eta L nt (asDraw w) c' id' ic') = if c = c' ∧ id = id' ∧ ic = ic' then 1 else 0 := by
  have hb : ∀ (id : Fin 4) (ic : Fin 3) (r : Fin 2), 6 * id.val + 2 * ic.val + r.val < 24 := by intro id ic r; omega
  have hp : ∀ (c : Coords) (hc : c ∈ box L) (id : Fin 4) (ic : Fin 3) (r : Fin 2) (w : Draws M (vol L)), pm (asDraw w (lxOfCoord c L) (6 * id.val + 2 * ic.val + r.val)) =
      sgn w (⟨lxOfCoord c L, lx_lt hc⟩, ⟨6 * id.val + 2 * ic.val + r.val, hb id ic r⟩) := fun c hc id ic r w => pm_asDraw hM w _ _
  have h0 := fun (c : Coords) (hc : c ∈ box L) (id : Fin 4) (ic : Fin 3) w => hp c hc id ic 0 w
  have h1 := fun (c : Coords) (hc : c ∈ box L) (id : Fin 4) (ic : Fin 3) w => hp c hc id ic 1 w
  simp only [Fin.val_zero, Fin.val_one, Nat.add_zero] at h0 h1
  have k := fun (r r' : Fin 2) => E_sgn hM (⟨lxOfCoord c L, lx_lt hc⟩, ⟨6 * id.val + 2 * ic.val + r.val, hb id ic r⟩) (⟨lxOfCoord c' L, lx_lt hc'⟩, ⟨6 * id'.val + 2 * ic'.val + r'.val, hb id' ic' r'⟩)
  simp only [key_eq hc hc'] at k
  rcases hn with h | h <;> subst h
  · unfold eta specNoise
    simp only [h0 c hc, h0 c' hc']
    have := k 0 0
    simp only [Fin.val_zero, Nat.add_zero, and_true] at this
    rw [← this]
    congr 1
    funext w
    simp
  · unfold eta specNoise
    simp only [h0 c hc, h0 c' hc', h1 c hc, h1 c' hc']
    have k00 := k 0 0
    have k11 := k 1 1
    have k01 := k 0 1
    have k10 := k 1 0
    simp only [Fin.val_zero, Fin.val_one, Nat.add_zero, and_true, zero_ne_one, one_ne_zero, and_false, if_false] at k00 k11 k01 k10
    have h2 : ((√2 : ℝ) : ℂ) * ((√2 : ℝ) : ℂ) = 2 := by exact_mod_cast Real.mul_self_sqrt (by norm_num : (0 : ℝ) ≤ 2)
    have hne : ((√2 : ℝ) : ℂ) ≠ 0 := by
      intro h; rw [h] at h2; norm_num at h2
    have e : ∀ a b p q : ℝ, star (((a : ℂ) + I * b) / ((√2 : ℝ) : ℂ)) * (((p : ℂ) + I * q) / ((√2 : ℝ) : ℂ)) =
        1 / 2 * ((a : ℂ) * p) + (1 / 2 * ((b : ℂ) * q) + (I / 2 * ((a : ℂ) * q) + (-I / 2) * ((b : ℂ) * p))) := by
      intro a b p q
      have : star (((a : ℂ) + I * b) / ((√2 : ℝ) : ℂ)) = ((a : ℂ) - I * b) / ((√2 : ℝ) : ℂ) := by
        simp [sub_eq_add_neg]
      rw [this, div_mul_div_comm, h2]
      have hI : I * I = -1 := I_mul_I
      linear_combination (-(b : ℂ) * q / 2) * hI
    simp only [e]
    rw [E_add, E_add, E_add, E_mul, E_mul, E_mul, E_mul, k00, k11, k01, k10]
    split <;> norm_num

/-- **C74**.  Completeness: summing on the colours of the source and averaging on the noise, the product of the sources of two spins is the identity on the points of the slice, in colour, and between
the spins of the sources (if not diluted in spin, the identity in spin) -/
theorem C74_complete {M : Nat} (hM : 0 < M) (dilSpi dilCol : Bool) {L ori : Coords} (tins : Int) {nt : Rnd} (hn : nt = .z2 ∨ nt = .z4) (sp sp' : Nat) {c c' : Coords} (hc : c ∈ box L) (hc' : c' ∈ box L)
    (id id' : Fin 4) (ic ic' : Fin 3) :
    ∑ b : Fin (if dilCol then 3 else 1), E (fun w : Draws M (vol L) => star (specSource dilSpi dilCol L ori tins nt (asDraw w) sp b c id ic) * specSource dilSpi dilCol L ori tins nt (asDraw w) sp' b c' id' ic') =
      if onSlice L ori tins c ∧ c = c' ∧ ic = ic' ∧ (if dilSpi then id.val = sp ∧ id'.val = sp' else id = id') then 1 else 0 := by
  have hz : E (fun w : Draws M (vol L) => (0 : ℂ)) = 0 := E_const hM 0
  unfold specSource
  have main : ∀ b : Nat, E (fun w : Draws M (vol L) => star (if onSlice L ori tins c ∧ (dilSpi = true → id.val = sp) ∧ (dilCol = true → ic.val = b) then eta L nt (asDraw w) c (if dilSpi then 0 else id) (if dilCol then 0 else ic) else 0) *
      (if onSlice L ori tins c' ∧ (dilSpi = true → id'.val = sp') ∧ (dilCol = true → ic'.val = b) then eta L nt (asDraw w) c' (if dilSpi then 0 else id') (if dilCol then 0 else ic') else 0)) =
      if onSlice L ori tins c ∧ c = c' ∧ (if dilSpi then id.val = sp ∧ id'.val = sp' else id = id') ∧ (if dilCol then ic.val = b ∧ ic'.val = b else ic = ic') then 1 else 0 := by
    intro b
    by_cases h1 : onSlice L ori tins c ∧ (dilSpi = true → id.val = sp) ∧ (dilCol = true → ic.val = b)
    · by_cases h2 : onSlice L ori tins c' ∧ (dilSpi = true → id'.val = sp') ∧ (dilCol = true → ic'.val = b)
      · simp only [if_pos h1, if_pos h2]
        rw [C74_noise_average hM hn hc hc']
        obtain ⟨a1, a2, a3⟩ := h1
        obtain ⟨b1, b2, b3⟩ := h2
        congr 1
        apply propext
        cases dilSpi <;> cases dilCol <;> simp_all
      · simp only [if_neg h2, mul_zero, hz]
        rw [if_neg]
        rintro ⟨a1, a2, a3, a4⟩
        apply h2
        subst a2
        refine ⟨a1, ?_, ?_⟩
        · intro h; rw [h] at a3; exact a3.2
        · intro h; rw [h] at a4; exact a4.2
    · simp only [if_neg h1, star_zero, zero_mul, hz]
      rw [if_neg]
      rintro ⟨a1, a2, a3, a4⟩
      apply h1
      refine ⟨a1, ?_, ?_⟩
      · intro h; rw [h] at a3; exact a3.1
      · intro h; rw [h] at a4; exact a4.1
  refine (Finset.sum_congr rfl fun b _ => main b.val).trans ?_
  refine (Finset.sum_range (fun b : Nat => if onSlice L ori tins c ∧ c = c' ∧ (if dilSpi then id.val = sp ∧ id'.val = sp' else id = id') ∧ (if dilCol then ic.val = b ∧ ic'.val = b else ic = ic') then (1 : ℂ) else 0)).symm.trans ?_
  cases dilCol
  · simp only [Bool.false_eq_true, if_false]
    rw [Finset.sum_range_one]
    congr 1
    apply propext
    tauto
  · simp only [if_true]
    by_cases h : ic = ic'
    · subst h
      rw [Finset.sum_eq_single ic.val]
      · simp
      · intro b _ hb
        rw [if_neg]
        rintro ⟨-, -, -, e, -⟩
        exact hb e.symm
      · intro h; exact absurd (Finset.mem_range.2 ic.isLt) h
    · rw [if_neg (show ¬ (onSlice L ori tins c ∧ c = c' ∧ ic = ic' ∧ _) from fun x => h x.2.2.1)]
      refine Finset.sum_eq_zero fun b _ => ?_
      rw [if_neg]
      rintro ⟨-, -, -, e, e'⟩
      exact h (Fin.ext (e.trans e'.symm))

end

end Nissa.Src
