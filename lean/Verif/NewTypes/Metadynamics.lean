import Mathlib.Data.Real.Basic
import Mathlib.Algebra.Order.Floor.Ring
import Mathlib.Analysis.Calculus.Deriv.Add
import Mathlib.Analysis.Calculus.Deriv.Mul
import Mathlib.Analysis.Calculus.Deriv.Pow
import Mathlib.Tactic.Linarith
import Mathlib.Tactic.Ring
import Mathlib.Tactic.FieldSimp
import Mathlib.Tactic.NormNum

/-! # History-dependent potential (metadynamics)

Real numbers stand for `double`, `Int` for `int` (no overflow, no rounding); `none` is an access out of the vector, a division by zero or a crash. -/

set_option linter.all false

namespace Nissa.Meta

noncomputable section

/-- conversion of a `double` to `int`: towards zero -/
def toInt (x : ℝ) : Int := if 0 ≤ x then ⌊x⌋ else ⌈x⌉

/-- the fields used.  `/repo/src/new_types/metadynamics.hpp:11-70` -/
structure Pars where
  after : Int
  each : Int
  coeff : ℝ
  width : ℝ
  barr : ℝ
  force_out : ℝ
  ngrid : Int
  grid : List ℝ

/-- access to the vector -/
def at? (l : List ℝ) (i : Int) : Option ℝ := if i < 0 then none else l[i.toNat]?

/-- `grid[i]+=v` -/
def add? (l : List ℝ) (i : Int) (v : ℝ) : Option (List ℝ) :=
  if 0 ≤ i ∧ i < l.length then some (l.modify i.toNat (· + v)) else none

/-- `meta_pars_t::init`; a negative size makes `resize` throw.  `/repo/src/new_types/metadynamics.cpp:148-154` -/
def init (m : Pars) : Option Pars :=
  let ngrid := toInt ((2 * m.barr + m.width / 2) / m.width)
  if ngrid + 1 < 0 then none else
  some { m with ngrid := ngrid, grid := List.replicate (ngrid + 1).toNat 0 }

/-- `meta_pars_t::update`.  `/repo/src/new_types/metadynamics.cpp:31-47` -/
def update (m : Pars) (isweep : Int) (Q : ℝ) : Option Pars :=
  if isweep ≥ m.after then
    if m.each = 0 then none else
    if (isweep - m.after).tmod m.each = 0 then
      let igrid := toInt (⌊Q / m.width⌋ + (m.ngrid : ℝ) / 2)
      let alpha := Q / m.width
      let alpha := alpha - ⌊alpha⌋
      (if igrid ≥ 0 ∧ igrid ≤ m.ngrid then add? m.grid igrid ((1 - alpha) * m.coeff) else some m.grid).bind fun grid =>
      (if igrid + 1 ≥ 0 ∧ igrid + 1 ≤ m.ngrid then add? grid (igrid + 1) (alpha * m.coeff) else some grid).map fun grid =>
      { m with grid := grid }
    else some m
  else some m

/-- `meta_pars_t::compute_pot_der`.  `/repo/src/new_types/metadynamics.cpp:50-63` -/
def compute_pot_der (m : Pars) (x : ℝ) : Option ℝ :=
  let igrid := ⌊(x + m.barr) / m.width⌋
  if igrid ≥ 0 ∧ igrid < m.ngrid then
    (at? m.grid (igrid + 1)).bind fun b => (at? m.grid igrid).map fun a => (b - a) / m.width
  else if igrid < 0 then some (-m.force_out * (-x - m.barr))
  else some (m.force_out * (x - m.barr))

/-- `meta_pars_t::compute_pot`.  `/repo/src/new_types/metadynamics.cpp:66-86` -/
def compute_pot (m : Pars) (x : ℝ) : Option ℝ :=
  let igrid := ⌊(x + m.barr) / m.width⌋
  if igrid ≥ 0 ∧ igrid < m.ngrid then
    let x0 := igrid * m.width - m.barr
    (at? m.grid (igrid + 1)).bind fun b => (at? m.grid igrid).map fun a =>
      let s := (b - a) / m.width
      let q := a - s * x0
      q + s * x
  else if igrid < 0 then (at? m.grid 0).map fun a => m.force_out * (-x - m.barr) ^ 2 / 2 + a
  else (at? m.grid m.ngrid).map fun a => m.force_out * (x - m.barr) ^ 2 / 2 + a

/-- `meta_pars_t::save`: the lines of the file, `p6` and `p16` being the numbers as printed.  `/repo/src/new_types/metadynamics.cpp:89-97` -/
def save (p6 p16 : ℝ → ℝ) (m : Pars) : Option (List (ℝ × ℝ)) :=
  (List.range (m.ngrid + 1).toNat).mapM fun i : Nat => (at? m.grid i).map fun v => (p6 (-m.barr + i * m.width), p16 v)

/-- the reading loop of `load` on the first rank -/
def loadLoop (m : Pars) (lines : List (ℝ × ℝ)) : Nat → List ℝ → Option (List ℝ)
  | 0, grid => some grid
  | n + 1, grid => (loadLoop m lines n grid).bind fun grid =>
    match lines[n]? with
    | none => none
    | some (xread, v) => if (n : Int) ≠ ⌊(xread + m.barr + m.width / 2) / m.width⌋ then none else some (grid.set n v)

/-- `meta_pars_t::load`: the first rank reads, then every element is broadcast, so that every rank holds what the first one has read.
`/repo/src/new_types/metadynamics.cpp:100-119` -/
def load (lines : List (ℝ × ℝ)) (m : Nat → Pars) : Option (Nat → Pars) :=
  let resized := fun rk => ((m rk).grid ++ List.replicate ((m rk).ngrid + 1).toNat 0).take ((m rk).ngrid + 1).toNat
  (loadLoop (m 0) lines ((m 0).ngrid + 1).toNat (resized 0)).map fun grid rk => { m rk with grid := grid }

/-! ### Specification -/

/-- hat function of width 1 -/
def hat (y : ℝ) : ℝ := max 0 (1 - |y|)

/-- Specification: is the value of this sweep to be accumulated? -/
def Counted (m : Pars) (isweep : Int) : Prop := m.after ≤ isweep ∧ m.each ∣ isweep - m.after

open Classical in
/-- Specification: height of the grid point in `X` due to the history: every counted value contributes the hat of width `width` centred on it -/
def height (m : Pars) (hist : List (Int × ℝ)) (X : ℝ) : ℝ :=
  (hist.map fun h => if Counted m h.1 then m.coeff * hat ((h.2 - X) / m.width) else 0).sum

/-- the history of the updates -/
def updates (m : Pars) (hist : List (Int × ℝ)) : Option Pars := hist.foldlM (fun m h => update m h.1 h.2) m

/-- sizes coherent -/
structure Ok (m : Pars) : Prop where
  width : 0 < m.width
  each : m.each ≠ 0
  ngrid : 0 ≤ m.ngrid
  grid : m.grid.length = (m.ngrid + 1).toNat

/-- the barrier is a multiple of the width -/
structure Commensurate (m : Pars) : Prop where
  n : ∃ k : Int, m.ngrid = 2 * k ∧ m.barr = k * m.width

theorem toInt_int (k : Int) : toInt (k : ℝ) = k := by
  unfold toInt; split <;> simp

theorem at_some {l : List ℝ} {i : Int} (h0 : 0 ≤ i) (h1 : i < l.length) : at? l i = some (l.getD i.toNat 0) := by
  unfold at?
  rw [if_neg (by omega)]
  have h : i.toNat < l.length := by omega
  simp [List.getD, h]

theorem hat_out {y : ℝ} (h : 1 ≤ |y|) : hat y = 0 := by unfold hat; exact max_eq_left (by linarith)
theorem hat_in {y : ℝ} (h : |y| ≤ 1) : hat y = 1 - |y| := by unfold hat; exact max_eq_right (by linarith)

/-- one update, in the commensurate case: each grid point gets the hat -/
theorem update_spec {m : Pars} (ok : Ok m) (hc : Commensurate m) (isweep : Int) (Q : ℝ) :
    ∃ m', update m isweep Q = some m' ∧ Ok m' ∧ { m' with grid := m.grid } = m ∧
      ∀ i : Nat, (i : Int) ≤ m.ngrid → m'.grid.getD i 0 = m.grid.getD i 0 + height m [(isweep, Q)] (-m.barr + i * m.width) := by
  obtain ⟨k, hk, hb⟩ := hc.n
  have hw := ok.width
  have hcnt : Counted m isweep ↔ isweep ≥ m.after ∧ (isweep - m.after).tmod m.each = 0 := by
    unfold Counted
    exact and_congr_right fun _ => Int.dvd_iff_tmod_eq_zero
  unfold update
  by_cases h1 : isweep ≥ m.after
  · rw [if_pos h1, if_neg ok.each]
    by_cases h2 : (isweep - m.after).tmod m.each = 0
    · rw [if_pos h2]
      set f := ⌊Q / m.width⌋ with hf
      have hig : toInt (f + (m.ngrid : ℝ) / 2) = f + k := by
        rw [hk]; push_cast
        rw [show (f : ℝ) + 2 * k / 2 = ((f + k : Int) : ℝ) by push_cast; ring, toInt_int]
      simp only [hig]
      set al := Q / m.width - f with hal
      have a0 : 0 ≤ al := by have := Int.floor_le (Q / m.width); rw [hal]; linarith
      have a1 : al < 1 := by have := Int.lt_floor_add_one (Q / m.width); rw [hal]; linarith
      have hlen : (m.grid.length : Int) = m.ngrid + 1 := by rw [ok.grid]; have := ok.ngrid; omega
      -- value of the hat
      have hval : ∀ i : Nat, height m [(isweep, Q)] (-m.barr + i * m.width) = (if (i : Int) = f + k then (1 - al) * m.coeff else 0) + (if (i : Int) = f + k + 1 then al * m.coeff else 0) := by
        intro i
        unfold height
        simp only [List.map_cons, List.map_nil, List.sum_cons, List.sum_nil, add_zero]
        rw [if_pos (hcnt.2 ⟨h1, h2⟩)]
        have harg : (Q - (-m.barr + i * m.width)) / m.width = al + ((f + k - i : Int) : ℝ) := by
          rw [hal, hb]; push_cast; field_simp; ring
        rw [harg]
        by_cases e1 : (i : Int) = f + k
        · rw [if_pos e1, if_neg (by omega)]
          rw [show (f + k - i : Int) = 0 by omega, Int.cast_zero, add_zero, hat_in (by rw [abs_of_nonneg a0]; linarith), abs_of_nonneg a0]
          ring
        · rw [if_neg e1]
          by_cases e2 : (i : Int) = f + k + 1
          · rw [if_pos e2]
            rw [show (f + k - i : Int) = -1 by omega]
            push_cast
            have : |al + -1| = 1 - al := by rw [abs_of_nonpos (by linarith)]; ring
            rw [hat_in (by rw [this]; linarith), this]; ring
          · rw [if_neg e2, hat_out, mul_zero, add_zero]
            rcases lt_trichotomy (f + k - i : Int) 0 with h | h | h
            · have : ((f + k - i : Int) : ℝ) ≤ -2 := by exact_mod_cast (by omega : (f + k - i : Int) ≤ -2)
              rw [abs_of_nonpos (by linarith)]; linarith
            · omega
            · have : (1 : ℝ) ≤ ((f + k - i : Int) : ℝ) := by exact_mod_cast (by omega : 1 ≤ (f + k - i : Int))
              rw [abs_of_nonneg (by linarith)]; linarith
      -- the two writes
      have hwr : ∀ (l : List ℝ) (j : Int) (v : ℝ), (l.length : Int) = m.ngrid + 1 →
          ∃ l', (if j ≥ 0 ∧ j ≤ m.ngrid then add? l j v else some l) = some l' ∧ (l'.length : Int) = m.ngrid + 1 ∧
            ∀ i : Nat, (i : Int) ≤ m.ngrid → l'.getD i 0 = l.getD i 0 + if (i : Int) = j then v else 0 := by
        intro l j v hl
        by_cases hj : j ≥ 0 ∧ j ≤ m.ngrid
        · rw [if_pos hj]
          unfold add?
          rw [if_pos ⟨hj.1, by omega⟩]
          refine ⟨_, rfl, by simpa using hl, fun i hi => ?_⟩
          have hil : i < l.length := by omega
          simp only [List.getD, List.getElem?_modify]
          by_cases e : (i : Int) = j
          · rw [if_pos e]; simp [hil, show j.toNat = i by omega]
          · rw [if_neg e, add_zero]; simp [show j.toNat ≠ i by omega]
        · rw [if_neg hj]
          refine ⟨l, rfl, hl, fun i hi => ?_⟩
          rw [if_neg (by omega), add_zero]
      obtain ⟨l1, e1, n1, v1⟩ := hwr m.grid (f + k) ((1 - al) * m.coeff) hlen
      obtain ⟨l2, e2, n2, v2⟩ := hwr l1 (f + k + 1) (al * m.coeff) n1
      rw [e1]
      simp only [Option.bind_some]
      rw [e2]
      refine ⟨_, rfl, ⟨hw, ok.each, ok.ngrid, by show l2.length = (m.ngrid + 1).toNat; have := ok.ngrid; omega⟩, rfl, fun i hi => ?_⟩
      show l2.getD i 0 = _
      rw [v2 i hi, v1 i hi, hval i, add_assoc]
    · rw [if_neg h2]
      refine ⟨m, rfl, ok, rfl, fun i _ => ?_⟩
      unfold height
      simp [show ¬ Counted m isweep from fun h => h2 (hcnt.1 h).2]
  · rw [if_neg h1]
    refine ⟨m, rfl, ok, rfl, fun i _ => ?_⟩
    unfold height
    simp [show ¬ Counted m isweep from fun h => h1 (hcnt.1 h).1]

theorem height_congr {m m' : Pars} {l : List ℝ} (h : { m' with grid := l } = m) (hist : List (Int × ℝ)) (X : ℝ) : height m' hist X = height m hist X := by
  subst h; rfl

theorem height_cons (m : Pars) (h : Int × ℝ) (hist : List (Int × ℝ)) (X : ℝ) : height m (h :: hist) X = height m [h] X + height m hist X := by
  unfold height; simp

/-- C53: the history.  With a barrier multiple of the width, no access falls out of the grid and after any sequence of updates each grid point holds
what it had plus the sum over the counted sweeps of `coeff` times the hat centred on the charge. -/
theorem C53_history {m : Pars} (ok : Ok m) (hc : Commensurate m) (hist : List (Int × ℝ)) :
    ∃ m', updates m hist = some m' ∧ Ok m' ∧ { m' with grid := m.grid } = m ∧
      ∀ i : Nat, (i : Int) ≤ m.ngrid → m'.grid.getD i 0 = m.grid.getD i 0 + height m hist (-m.barr + i * m.width) := by
  induction hist generalizing m with
  | nil => exact ⟨m, rfl, ok, rfl, fun i _ => by simp [height]⟩
  | cons h hist ih =>
    obtain ⟨isw, Q⟩ := h
    obtain ⟨m1, e1, o1, s1, v1⟩ := update_spec ok hc isw Q
    have hc1 : Commensurate m1 := by
      have h1 : m1.ngrid = m.ngrid := by rw [← s1]
      have h2 : m1.barr = m.barr := by rw [← s1]
      have h3 : m1.width = m.width := by rw [← s1]
      exact ⟨by rw [h1, h2, h3]; exact hc.n⟩
    obtain ⟨m2, e2, o2, s2, v2⟩ := ih o1 hc1
    refine ⟨m2, ?_, o2, ?_, fun i hi => ?_⟩
    · unfold updates at e2 ⊢
      rw [List.foldlM_cons, e1]
      exact e2
    · rw [← s1, ← s2]
    · have hn : m1.ngrid = m.ngrid := by rw [← s1]
      have hb : m1.barr = m.barr := by rw [← s1]
      have hw : m1.width = m.width := by rw [← s1]
      rw [v2 i (by omega), v1 i hi, height_cons m (isw, Q) hist, hb, hw, height_congr s1 hist]
      ring

/-- the potential never reads out of the grid -/
theorem pot_some {m : Pars} (ok : Ok m) (x : ℝ) : ∃ v, compute_pot m x = some v := by
  have hl : (m.grid.length : Int) = m.ngrid + 1 := by rw [ok.grid]; have := ok.ngrid; omega
  have hn := ok.ngrid
  unfold compute_pot
  simp only
  split
  · rename_i h
    rw [at_some (by omega) (by omega), at_some h.1 (by omega)]
    exact ⟨_, rfl⟩
  · split
    · rw [at_some (le_refl 0) (by omega)]; exact ⟨_, rfl⟩
    · rw [at_some hn (by omega)]; exact ⟨_, rfl⟩

theorem der_some {m : Pars} (ok : Ok m) (x : ℝ) : ∃ v, compute_pot_der m x = some v := by
  have hl : (m.grid.length : Int) = m.ngrid + 1 := by rw [ok.grid]; have := ok.ngrid; omega
  have hn := ok.ngrid
  unfold compute_pot_der
  simp only
  split
  · rename_i h
    rw [at_some (by omega) (by omega), at_some h.1 (by omega)]
    exact ⟨_, rfl⟩
  · split <;> exact ⟨_, rfl⟩

/-- the potential in the cell `i` -/
theorem pot_cell {m : Pars} (ok : Ok m) {i : Nat} (hi : (i : Int) < m.ngrid) {x : ℝ} (h0 : -m.barr + i * m.width ≤ x) (h1 : x < -m.barr + (i + 1) * m.width) :
    compute_pot m x = some (m.grid.getD i 0 + (m.grid.getD (i + 1) 0 - m.grid.getD i 0) / m.width * (x - (-m.barr + i * m.width))) ∧
    compute_pot_der m x = some ((m.grid.getD (i + 1) 0 - m.grid.getD i 0) / m.width) := by
  have hw := ok.width
  have hl : (m.grid.length : Int) = m.ngrid + 1 := by rw [ok.grid]; have := ok.ngrid; omega
  have hf : ⌊(x + m.barr) / m.width⌋ = (i : Int) := by
    rw [Int.floor_eq_iff]
    push_cast
    constructor
    · rw [le_div_iff₀ hw]; linarith
    · rw [div_lt_iff₀ hw]; linarith
  unfold compute_pot compute_pot_der
  simp only [hf]
  rw [if_pos ⟨by omega, hi⟩, if_pos ⟨by omega, hi⟩, at_some (by omega) (by omega), at_some (by omega) (by omega)]
  have e1 : ((i : Int) + 1).toNat = i + 1 := by omega
  have e2 : ((i : Int)).toNat = i := by omega
  rw [e1, e2]
  refine ⟨?_, rfl⟩
  simp only [Option.bind_some, Option.map_some, Option.some.injEq]
  push_cast
  ring

theorem pot_below {m : Pars} (ok : Ok m) {x : ℝ} (h : x < -m.barr) :
    compute_pot m x = some (m.force_out * (x + m.barr) ^ 2 / 2 + m.grid.getD 0 0) ∧ compute_pot_der m x = some (m.force_out * (x + m.barr)) := by
  have hw := ok.width
  have hl : (m.grid.length : Int) = m.ngrid + 1 := by rw [ok.grid]; have := ok.ngrid; omega
  have hf : ⌊(x + m.barr) / m.width⌋ < 0 := by
    rw [Int.floor_lt, Int.cast_zero]
    exact div_neg_of_neg_of_pos (by linarith) hw
  have hn := ok.ngrid
  unfold compute_pot compute_pot_der
  simp only
  rw [if_neg (by omega), if_pos hf, if_neg (by omega), if_pos hf, at_some (le_refl 0) (by omega)]
  simp only [Option.map_some, Option.some.injEq]
  exact ⟨by rw [show (0 : Int).toNat = 0 from rfl]; ring, by ring⟩

theorem pot_above {m : Pars} (ok : Ok m) {x : ℝ} (h : -m.barr + m.ngrid * m.width ≤ x) :
    compute_pot m x = some (m.force_out * (x - m.barr) ^ 2 / 2 + m.grid.getD m.ngrid.toNat 0) ∧ compute_pot_der m x = some (m.force_out * (x - m.barr)) := by
  have hw := ok.width
  have hl : (m.grid.length : Int) = m.ngrid + 1 := by rw [ok.grid]; have := ok.ngrid; omega
  have hn := ok.ngrid
  have hf : m.ngrid ≤ ⌊(x + m.barr) / m.width⌋ := by
    rw [Int.le_floor, le_div_iff₀ hw]; linarith
  unfold compute_pot compute_pot_der
  simp only
  rw [if_neg (by omega), if_neg (by omega), if_neg (by omega), if_neg (by omega), at_some hn (by omega)]
  exact ⟨rfl, rfl⟩

/-- the cell of a point between the barriers -/
theorem cell {m : Pars} (ok : Ok m) {x : ℝ} (h0 : -m.barr ≤ x) (h1 : x < -m.barr + m.ngrid * m.width) :
    ∃ i : Nat, (i : Int) < m.ngrid ∧ -m.barr + i * m.width ≤ x ∧ x < -m.barr + (i + 1) * m.width := by
  have hw := ok.width
  have hf0 : 0 ≤ ⌊(x + m.barr) / m.width⌋ := by
    rw [Int.le_floor, Int.cast_zero]
    exact div_nonneg (by linarith) hw.le
  have hf1 : ⌊(x + m.barr) / m.width⌋ < m.ngrid := by
    rw [Int.floor_lt, div_lt_iff₀ hw]; linarith
  refine ⟨⌊(x + m.barr) / m.width⌋.toNat, by omega, ?_, ?_⟩
  · have h := Int.floor_le ((x + m.barr) / m.width)
    rw [le_div_iff₀ hw] at h
    have e : ((⌊(x + m.barr) / m.width⌋.toNat : Nat) : ℝ) = (⌊(x + m.barr) / m.width⌋ : ℝ) := by exact_mod_cast Int.toNat_of_nonneg hf0
    rw [e]; linarith
  · have h := Int.lt_floor_add_one ((x + m.barr) / m.width)
    rw [div_lt_iff₀ hw] at h
    have e : ((⌊(x + m.barr) / m.width⌋.toNat : Nat) : ℝ) = (⌊(x + m.barr) / m.width⌋ : ℝ) := by exact_mod_cast Int.toNat_of_nonneg hf0
    rw [e]; linarith

/-- C53: between the barriers the potential interpolates the values on the grid linearly (in the grid points it equals them). -/
theorem C53_interpolates {m : Pars} (ok : Ok m) {i : Nat} (hi : (i : Int) < m.ngrid) {t : ℝ} (h0 : 0 ≤ t) (h1 : t < 1) :
    compute_pot m (-m.barr + (i + t) * m.width) = some ((1 - t) * m.grid.getD i 0 + t * m.grid.getD (i + 1) 0) := by
  have hw := ok.width
  rw [(pot_cell ok hi (x := -m.barr + (i + t) * m.width) (by nlinarith) (by nlinarith)).1]
  rw [show -m.barr + ((i : ℝ) + t) * m.width - (-m.barr + (i : ℝ) * m.width) = t * m.width by ring]
  congr 1
  field_simp
  ring

/-- the value of the potential -/
def pot (m : Pars) (x : ℝ) : ℝ := (compute_pot m x).getD 0
def der (m : Pars) (x : ℝ) : ℝ := (compute_pot_der m x).getD 0

/-- C53: `compute_pot_der` is the derivative of `compute_pot` everywhere but on the grid points (corners). -/
theorem C53_force_is_derivative {m : Pars} (ok : Ok m) {x : ℝ} (hx : ∀ i : Nat, (i : Int) ≤ m.ngrid → x ≠ -m.barr + i * m.width) :
    ∃ f : ℝ → ℝ, (∀ y, compute_pot m y = some (f y)) ∧ ∃ d, compute_pot_der m x = some d ∧ HasDerivAt f d x := by
  have hn := ok.ngrid
  refine ⟨pot m, fun y => ?_, der m x, ?_, ?_⟩
  · obtain ⟨v, hv⟩ := pot_some ok y
    rw [hv]; unfold pot; rw [hv]; rfl
  · obtain ⟨v, hv⟩ := der_some ok x
    rw [hv]; unfold der; rw [hv]; rfl
  · by_cases hb : x < -m.barr
    · have hd : der m x = m.force_out * (x + m.barr) := by unfold der; rw [(pot_below ok hb).2]; rfl
      rw [hd]
      have h : HasDerivAt (fun y => m.force_out * (y + m.barr) ^ 2 / 2 + m.grid.getD 0 0) (m.force_out * (x + m.barr)) x := by
        have h0 := HasDerivAt.add_const m.barr (hasDerivAt_id x)
        have h1 := HasDerivAt.fun_pow h0 2
        have h2 := HasDerivAt.add_const (m.grid.getD 0 0) (HasDerivAt.div_const (HasDerivAt.const_mul m.force_out h1) 2)
        refine HasDerivAt.congr_deriv h2 ?_
        simp
        ring
      refine HasDerivAt.congr_of_eventuallyEq h ?_
      filter_upwards [gt_mem_nhds hb] with y hy
      unfold pot
      rw [(pot_below ok hy).1]; rfl
    · by_cases ht : -m.barr + m.ngrid * m.width < x
      · have hd : der m x = m.force_out * (x - m.barr) := by unfold der; rw [(pot_above ok ht.le).2]; rfl
        rw [hd]
        have h : HasDerivAt (fun y => m.force_out * (y - m.barr) ^ 2 / 2 + m.grid.getD m.ngrid.toNat 0) (m.force_out * (x - m.barr)) x := by
          have h0 := HasDerivAt.sub_const m.barr (hasDerivAt_id x)
          have h1 := HasDerivAt.fun_pow h0 2
          have h2 := HasDerivAt.add_const (m.grid.getD m.ngrid.toNat 0) (HasDerivAt.div_const (HasDerivAt.const_mul m.force_out h1) 2)
          refine HasDerivAt.congr_deriv h2 ?_
          simp
          ring
        refine HasDerivAt.congr_of_eventuallyEq h ?_
        filter_upwards [lt_mem_nhds ht] with y hy
        unfold pot
        rw [(pot_above ok hy.le).1]; rfl
      · have hn' : ((m.ngrid.toNat : Nat) : ℝ) = (m.ngrid : ℝ) := by exact_mod_cast Int.toNat_of_nonneg hn
        have h2 := hx m.ngrid.toNat (by omega)
        rw [hn'] at h2
        obtain ⟨i, hi, c0, c1⟩ := cell ok (not_lt.1 hb) (lt_of_le_of_ne (not_lt.1 ht) h2)
        have c0' : -m.barr + i * m.width < x := lt_of_le_of_ne c0 (Ne.symm (hx i hi.le))
        have hd : der m x = (m.grid.getD (i + 1) 0 - m.grid.getD i 0) / m.width := by unfold der; rw [(pot_cell ok hi c0 c1).2]; rfl
        rw [hd]
        have h : HasDerivAt (fun y => m.grid.getD i 0 + (m.grid.getD (i + 1) 0 - m.grid.getD i 0) / m.width * (y - (-m.barr + i * m.width)))
            ((m.grid.getD (i + 1) 0 - m.grid.getD i 0) / m.width) x := by
          have h0 := HasDerivAt.sub_const (-m.barr + i * m.width) (hasDerivAt_id x)
          have h1 := HasDerivAt.const_add (m.grid.getD i 0) (HasDerivAt.const_mul ((m.grid.getD (i + 1) 0 - m.grid.getD i 0) / m.width) h0)
          refine HasDerivAt.congr_deriv h1 ?_
          simp
        refine HasDerivAt.congr_of_eventuallyEq h ?_
        filter_upwards [lt_mem_nhds c0', gt_mem_nhds c1] with y hy0 hy1
        unfold pot
        rw [(pot_cell ok hi hy0.le hy1).1]; rfl

/-- Specification: the potential at `x` after a history starting from a flat one: for each counted sweep, `coeff` times the overlap of the two hats -/
def potSpec (m : Pars) (hist : List (Int × ℝ)) (x : ℝ) : ℝ :=
  ∑ i ∈ Finset.range (m.ngrid + 1).toNat, hat ((x - (-m.barr + i * m.width)) / m.width) * height m hist (-m.barr + i * m.width)

theorem init_spec {m : Pars} (hw : 0 < m.width) (k : Nat) (hb : m.barr = k * m.width) (he : m.each ≠ 0) :
    ∃ m0, init m = some m0 ∧ Ok m0 ∧ Commensurate m0 ∧ m0.ngrid = 2 * k ∧ m0 = { m with ngrid := 2 * k, grid := List.replicate (2 * k + 1) 0 } := by
  have h1 : toInt ((2 * m.barr + m.width / 2) / m.width) = 2 * k := by
    have e : (2 * m.barr + m.width / 2) / m.width = 2 * k + 1 / 2 := by rw [hb]; field_simp
    rw [e]
    unfold toInt
    rw [if_pos (by positivity), Int.floor_eq_iff]
    push_cast
    constructor <;> linarith
  unfold init
  simp only [h1]
  rw [if_neg (by omega)]
  refine ⟨_, rfl, ⟨hw, he, by show (0 : Int) ≤ 2 * k; omega, ?_⟩, ⟨k, rfl, by rw [hb]; rfl⟩, rfl, ?_⟩
  · show (List.replicate _ _).length = _
    rw [List.length_replicate]
  · rw [show ((2 * (k : Int)) + 1).toNat = 2 * k + 1 by omega]

/-- C53: the potential of the history.  With a barrier multiple of the width, after initialization and any sequence of updates, the potential
between the barriers is the sum over the counted sweeps of `coeff` times the overlap on the grid of the hats centred on the charge and on `x`;
beyond the barriers it grows quadratically from the value at the barrier. -/
theorem C53_potential {m : Pars} (hw : 0 < m.width) (k : Nat) (hb : m.barr = k * m.width) (he : m.each ≠ 0) (hist : List (Int × ℝ)) :
    ∃ m0 m', init m = some m0 ∧ m0.ngrid = 2 * k ∧ updates m0 hist = some m' ∧
      (∀ x, -m.barr ≤ x → x ≤ m.barr → compute_pot m' x = some (potSpec m0 hist x)) ∧
      (∀ x, x < -m.barr → compute_pot m' x = some (m.force_out * (x + m.barr) ^ 2 / 2 + potSpec m0 hist (-m.barr))) ∧
      (∀ x, m.barr < x → compute_pot m' x = some (m.force_out * (x - m.barr) ^ 2 / 2 + potSpec m0 hist m.barr)) := by
  obtain ⟨m0, e0, o0, c0, n0, d0⟩ := init_spec hw k hb he
  obtain ⟨m', e1, o1, s1, v1⟩ := C53_history o0 c0 hist
  have hb0 : m0.barr = m.barr := by rw [d0]
  have hw0 : m0.width = m.width := by rw [d0]
  have hb1 : m'.barr = m.barr := by rw [← hb0, ← s1]
  have hw1 : m'.width = m.width := by rw [← hw0, ← s1]
  have hn1 : m'.ngrid = 2 * k := by rw [← n0, ← s1]
  have hf1 : m'.force_out = m.force_out := by have : m0.force_out = m.force_out := by rw [d0]
                                              rw [← this, ← s1]
  have hg : ∀ i : Nat, i ≤ 2 * k → m'.grid.getD i 0 = height m0 hist (-m.barr + i * m.width) := by
    intro i hi
    rw [v1 i (by omega), hb0, hw0, d0]
    have : (List.replicate (2 * k + 1) (0 : ℝ)).getD i 0 = 0 := by
      simp only [List.getD, List.getElem?_replicate]
      split <;> rfl
    rw [this, zero_add]
  -- the specification on a point of a cell
  have hsp : ∀ (i : Nat) (t : ℝ), i ≤ 2 * k → 0 ≤ t → t < 1 → potSpec m0 hist (-m.barr + (i + t) * m.width) =
      (1 - t) * height m0 hist (-m.barr + i * m.width) + if i < 2 * k then t * height m0 hist (-m.barr + (i + 1 : Nat) * m.width) else 0 := by
    intro i t hi h0 h1
    unfold potSpec
    rw [n0, hb0, hw0, show ((2 * (k : Int)) + 1).toNat = 2 * k + 1 by omega]
    have harg : ∀ j : Nat, (-m.barr + (i + t) * m.width - (-m.barr + j * m.width)) / m.width = i + t - j := by
      intro j; field_simp; ring
    simp only [harg]
    have hz : ∀ j ∈ Finset.range (2 * k + 1), hat ((i : ℝ) + t - j) * height m0 hist (-m.barr + j * m.width) =
        (if j = i then (1 - t) * height m0 hist (-m.barr + j * m.width) else 0) + (if j = i + 1 then t * height m0 hist (-m.barr + j * m.width) else 0) := by
      intro j _
      by_cases e1 : j = i
      · subst e1
        rw [if_pos rfl, if_neg (by omega), show (j : ℝ) + t - j = t by ring, hat_in (by rw [abs_of_nonneg h0]; exact h1.le), abs_of_nonneg h0, add_zero]
      · rw [if_neg e1]
        by_cases e2 : j = i + 1
        · subst e2
          have hc : (i : ℝ) + t - ((i + 1 : Nat) : ℝ) = t - 1 := by push_cast; ring
          have ha : |t - 1| = 1 - t := by rw [abs_of_nonpos (by linarith)]; ring
          rw [if_pos rfl, hc, hat_in (by rw [ha]; linarith), ha]; ring
        · rw [if_neg e2, hat_out, zero_mul, add_zero]
          rcases Nat.lt_or_gt_of_ne e1 with h | h
          · have : (j : ℝ) + 1 ≤ i := by exact_mod_cast h
            rw [abs_of_nonneg (by linarith)]; linarith
          · have : (i : ℝ) + 2 ≤ j := by exact_mod_cast (by omega : i + 2 ≤ j)
            rw [abs_of_nonpos (by linarith)]; linarith
    rw [Finset.sum_congr rfl hz, Finset.sum_add_distrib, Finset.sum_ite_eq' , Finset.sum_ite_eq', if_pos (Finset.mem_range.2 (by omega))]
    congr 1
    by_cases hlt : i < 2 * k
    · rw [if_pos hlt, if_pos (Finset.mem_range.2 (by omega))]
    · rw [if_neg hlt, if_neg (by rw [Finset.mem_range]; omega)]
  have hlo : potSpec m0 hist (-m.barr) = height m0 hist (-m.barr) := by
    have h := hsp 0 0 (by omega) (le_refl 0) one_pos
    simp only [Nat.cast_zero, zero_mul, add_zero, sub_zero, one_mul, ite_self] at h
    exact h
  have hhi : potSpec m0 hist m.barr = height m0 hist m.barr := by
    have h := hsp (2 * k) 0 (le_refl _) (le_refl 0) one_pos
    have e : -m.barr + ((2 * k : Nat) : ℝ) * m.width = m.barr := by rw [hb]; push_cast; ring
    simp only [zero_mul, add_zero, sub_zero, one_mul, ite_self, e] at h
    exact h
  refine ⟨m0, m', e0, n0, e1, ?_, ?_, ?_⟩
  · intro x h0 h1
    by_cases hx : x = m.barr
    · subst hx
      have h := (pot_above o1 (x := m.barr) (by rw [hb1, hw1, hn1, hb]; push_cast; linarith)).1
      rw [h, hb1, hn1, show (2 * (k : Int)).toNat = 2 * k by omega, hg (2 * k) (le_refl _), hhi]
      have e : -m.barr + ((2 * k : Nat) : ℝ) * m.width = m.barr := by rw [hb]; push_cast; ring
      rw [e]
      congr 1
      ring
    · obtain ⟨i, hi, c0, c1⟩ := cell o1 (x := x) (by rw [hb1]; exact h0) (by
        rw [hb1, hw1, hn1]
        have : x < m.barr := lt_of_le_of_ne h1 hx
        have e : -m.barr + ((2 * (k : Int) : Int) : ℝ) * m.width = m.barr := by rw [hb]; push_cast; ring
        rw [e]; exact this)
      rw [hb1, hw1] at c0 c1
      set t := (x + m.barr) / m.width - i with ht
      have t0 : 0 ≤ t := by rw [ht, sub_nonneg, le_div_iff₀ hw]; linarith
      have t1 : t < 1 := by rw [ht, sub_lt_iff_lt_add, div_lt_iff₀ hw]; linarith
      have ex : x = -m.barr + (i + t) * m.width := by rw [ht]; field_simp; ring
      have hik : i < 2 * k := by omega
      have h := C53_interpolates o1 hi t0 t1
      rw [hb1, hw1] at h
      rw [ex, h, hsp i t hik.le t0 t1, if_pos hik, hg i hik.le, hg (i + 1) hik]
  · intro x hx
    have h := (pot_below o1 (x := x) (by rw [hb1]; exact hx)).1
    rw [h, hf1, hb1, hg 0 (by omega), hlo]
    simp
  · intro x hx
    have h := (pot_above o1 (x := x) (by rw [hb1, hw1, hn1, hb]; push_cast; rw [hb] at hx; linarith)).1
    have e : -m.barr + ((2 * k : Nat) : ℝ) * m.width = m.barr := by rw [hb]; push_cast; ring
    rw [h, hf1, hb1, hn1, show (2 * (k : Int)).toNat = 2 * k by omega, hg (2 * k) (le_refl _), hhi, e]

/-- C53: the whole deposited weight: a charge between the barriers adds `coeff` in total to the grid, with barycentre in the charge. -/
theorem C53_deposit {m : Pars} (hw : 0 < m.width) (k : Nat) (hb : m.barr = k * m.width) (isweep : Int) (hc : Counted m isweep) {Q : ℝ} (h0 : -m.barr ≤ Q) (h1 : Q < m.barr) :
    ∑ i ∈ Finset.range (2 * k + 1), height m [(isweep, Q)] (-m.barr + i * m.width) = m.coeff ∧
    ∑ i ∈ Finset.range (2 * k + 1), height m [(isweep, Q)] (-m.barr + i * m.width) * (-m.barr + i * m.width) = m.coeff * Q := by
  set n : Nat := ⌊(Q + m.barr) / m.width⌋.toNat with hn
  have hf0 : 0 ≤ ⌊(Q + m.barr) / m.width⌋ := by rw [Int.le_floor, Int.cast_zero]; exact div_nonneg (by linarith) hw.le
  have en : (n : ℝ) = (⌊(Q + m.barr) / m.width⌋ : ℝ) := by rw [hn]; exact_mod_cast Int.toNat_of_nonneg hf0
  set t := (Q + m.barr) / m.width - n with ht
  have t0 : 0 ≤ t := by rw [ht, en]; have := Int.floor_le ((Q + m.barr) / m.width); linarith
  have t1 : t < 1 := by rw [ht, en]; have := Int.lt_floor_add_one ((Q + m.barr) / m.width); linarith
  have hnk : n < 2 * k := by
    have hlt : (Q + m.barr) / m.width < 2 * k := by rw [div_lt_iff₀ hw]; rw [hb] at h1 ⊢; linarith
    have : (n : ℝ) < 2 * k := by have := Int.floor_le ((Q + m.barr) / m.width); rw [en]; linarith
    exact_mod_cast this
  have hv : ∀ j : Nat, height m [(isweep, Q)] (-m.barr + j * m.width) = (if j = n then (1 - t) * m.coeff else 0) + (if j = n + 1 then t * m.coeff else 0) := by
    intro j
    unfold height
    simp only [List.map_cons, List.map_nil, List.sum_cons, List.sum_nil, add_zero]
    rw [if_pos hc]
    have harg : (Q - (-m.barr + j * m.width)) / m.width = n + t - j := by rw [ht]; field_simp; ring
    rw [harg]
    by_cases e1 : j = n
    · rw [if_pos e1, if_neg (by omega), e1, show (n : ℝ) + t - n = t by ring, hat_in (by rw [abs_of_nonneg t0]; exact t1.le), abs_of_nonneg t0]; ring
    · rw [if_neg e1]
      by_cases e2 : j = n + 1
      · rw [if_pos e2, e2]
        have hcc : (n : ℝ) + t - ((n + 1 : Nat) : ℝ) = t - 1 := by push_cast; ring
        have ha : |t - 1| = 1 - t := by rw [abs_of_nonpos (by linarith)]; ring
        rw [hcc, hat_in (by rw [ha]; linarith), ha]; ring
      · rw [if_neg e2, hat_out, mul_zero, add_zero]
        rcases Nat.lt_or_gt_of_ne e1 with h | h
        · have : (j : ℝ) + 1 ≤ n := by exact_mod_cast h
          rw [abs_of_nonneg (by linarith)]; linarith
        · have : (n : ℝ) + 2 ≤ j := by exact_mod_cast (by omega : n + 2 ≤ j)
          rw [abs_of_nonpos (by linarith)]; linarith
  have eQ : Q = -m.barr + (n + t) * m.width := by rw [ht]; field_simp; ring
  have m1 : n ∈ Finset.range (2 * k + 1) := Finset.mem_range.2 (by omega)
  have m2 : n + 1 ∈ Finset.range (2 * k + 1) := Finset.mem_range.2 (by omega)
  simp only [hv, add_mul, ite_mul, zero_mul]
  rw [Finset.sum_add_distrib, Finset.sum_add_distrib, Finset.sum_ite_eq', Finset.sum_ite_eq', Finset.sum_ite_eq', Finset.sum_ite_eq', if_pos m1, if_pos m2, if_pos m1, if_pos m2]
  refine ⟨by ring, ?_⟩
  rw [show m.coeff * Q = m.coeff * (-m.barr + (n + t) * m.width) from congrArg _ eQ]
  push_cast
  ring

/-! ### Barriers which are not multiples of the width -/

/-- C53: the potential has a jump at the upper end of the grid whenever this is not the barrier: the value there exceeds the limit from the left
by `force_out (ngrid width - 2 barr)^2/2`. -/
theorem C53_violated_jump {m : Pars} (ok : Ok m) (hn : 0 < m.ngrid) :
    compute_pot m (-m.barr + m.ngrid * m.width) = some (m.grid.getD m.ngrid.toNat 0 + m.force_out * (m.ngrid * m.width - 2 * m.barr) ^ 2 / 2) ∧
    ∀ eps : ℝ, 0 < eps → eps < 1 → compute_pot m (-m.barr + (m.ngrid - eps) * m.width) =
      some (m.grid.getD m.ngrid.toNat 0 - eps * (m.grid.getD m.ngrid.toNat 0 - m.grid.getD (m.ngrid.toNat - 1) 0)) := by
  constructor
  · rw [(pot_above ok (le_refl _)).1]
    congr 1
    ring
  · intro eps h0 h1
    have h := C53_interpolates ok (i := m.ngrid.toNat - 1) (by omega) (t := 1 - eps) (by linarith) (by linarith)
    have e1 : ((m.ngrid.toNat - 1 : Nat) : ℝ) = (m.ngrid : ℝ) - 1 := by
      have : ((m.ngrid.toNat - 1 : Nat) : Int) = m.ngrid - 1 := by omega
      exact_mod_cast congrArg (Int.cast (R := ℝ)) this
    rw [e1, show m.ngrid.toNat - 1 + 1 = m.ngrid.toNat by omega, show (m.ngrid : ℝ) - 1 + (1 - eps) = m.ngrid - eps by ring] at h
    rw [h]
    congr 1
    ring

/-- such parameters exist, the initialization accepts them -/
example : init ⟨0, 1, 1, 1, 7 / 10, 100, 0, []⟩ = some ⟨0, 1, 1, 1, 7 / 10, 100, 1, [0, 0]⟩ := by
  have h : toInt ((2 * (7 / 10 : ℝ) + 1 / 2) / 1) = 1 := by
    unfold toInt
    rw [if_pos (by norm_num), Int.floor_eq_iff]
    norm_num
  unfold init
  simp only [h]
  rfl

/-- C53: with an odd number of grid intervals (`barr` an odd multiple of `width/2`) the hat is deposited half a width away from the charge. -/
theorem C53_violated_odd {m : Pars} (ok : Ok m) (k : Nat) (hk : m.ngrid = 2 * k + 1) (hb : m.barr = (k + 1 / 2) * m.width) (isweep : Int) (hc : Counted m isweep)
    {Q : ℝ} (h0 : -(k : ℝ) * m.width ≤ Q) (h1 : Q < k * m.width) :
    ∃ m', update m isweep Q = some m' ∧ ∀ i : Nat, (i : Int) ≤ m.ngrid → m'.grid.getD i 0 = m.grid.getD i 0 + height m [(isweep, Q - m.width / 2)] (-m.barr + i * m.width) := by
  have hw := ok.width
  have hlen : (m.grid.length : Int) = m.ngrid + 1 := by rw [ok.grid]; have := ok.ngrid; omega
  set f := ⌊Q / m.width⌋ with hf
  have hf0 : -(k : Int) ≤ f := by rw [hf, Int.le_floor, le_div_iff₀ hw]; push_cast; exact h0
  have hf1 : f < k := by rw [hf, Int.floor_lt, div_lt_iff₀ hw]; push_cast; exact h1
  have hig : toInt (f + (m.ngrid : ℝ) / 2) = f + k := by
    rw [hk]; push_cast
    have hp : (0 : ℝ) ≤ ((f + k : Int) : ℝ) := by exact_mod_cast (by omega : 0 ≤ f + k)
    rw [show (f : ℝ) + (2 * k + 1) / 2 = ((f + k : Int) : ℝ) + 1 / 2 by push_cast; ring]
    unfold toInt
    rw [if_pos (by linarith), Int.floor_eq_iff]
    constructor <;> linarith
  set al := Q / m.width - f with hal
  have a0 : 0 ≤ al := by have := Int.floor_le (Q / m.width); rw [hal]; linarith
  have a1 : al < 1 := by have := Int.lt_floor_add_one (Q / m.width); rw [hal]; linarith
  unfold update
  rw [if_pos hc.1, if_neg ok.each, if_pos (Int.dvd_iff_tmod_eq_zero.1 hc.2)]
  simp only [← hf, hig, ← hal]
  rw [if_pos ⟨by omega, by omega⟩]
  unfold add?
  rw [if_pos ⟨by omega, by omega⟩]
  simp only [Option.bind_some]
  rw [if_pos ⟨by omega, by omega⟩, if_pos ⟨by omega, by rw [List.length_modify]; omega⟩]
  refine ⟨_, rfl, fun i hi => ?_⟩
  have hil : i < m.grid.length := by omega
  have hval : height m [(isweep, Q - m.width / 2)] (-m.barr + i * m.width) = (if (i : Int) = f + k then (1 - al) * m.coeff else 0) + (if (i : Int) = f + k + 1 then al * m.coeff else 0) := by
    unfold height
    simp only [List.map_cons, List.map_nil, List.sum_cons, List.sum_nil, add_zero]
    rw [if_pos hc]
    have harg : (Q - m.width / 2 - (-m.barr + i * m.width)) / m.width = al + ((f + k - i : Int) : ℝ) := by
      rw [hal, hb]; push_cast; field_simp; ring
    rw [harg]
    by_cases e1 : (i : Int) = f + k
    · rw [if_pos e1, if_neg (by omega)]
      rw [show (f + k - i : Int) = 0 by omega, Int.cast_zero, add_zero, hat_in (by rw [abs_of_nonneg a0]; linarith), abs_of_nonneg a0]
      ring
    · rw [if_neg e1]
      by_cases e2 : (i : Int) = f + k + 1
      · rw [if_pos e2]
        rw [show (f + k - i : Int) = -1 by omega]
        push_cast
        have : |al + -1| = 1 - al := by rw [abs_of_nonpos (by linarith)]; ring
        rw [hat_in (by rw [this]; linarith), this]; ring
      · rw [if_neg e2, hat_out, mul_zero, add_zero]
        rcases lt_trichotomy (f + k - i : Int) 0 with h | h | h
        · have : ((f + k - i : Int) : ℝ) ≤ -2 := by exact_mod_cast (by omega : (f + k - i : Int) ≤ -2)
          rw [abs_of_nonpos (by linarith)]; linarith
        · omega
        · have : (1 : ℝ) ≤ ((f + k - i : Int) : ℝ) := by exact_mod_cast (by omega : 1 ≤ (f + k - i : Int))
          rw [abs_of_nonneg (by linarith)]; linarith
  rw [hval]
  simp only [List.getD, List.getElem?_modify]
  by_cases e1 : (i : Int) = f + k
  · rw [if_pos e1, if_neg (by omega)]; simp [hil, show (f + k).toNat = i by omega, show (f + k + 1).toNat ≠ i by omega]
  · rw [if_neg e1]
    by_cases e2 : (i : Int) = f + k + 1
    · rw [if_pos e2]; simp [hil, show (f + k).toNat ≠ i by omega, show (f + k + 1).toNat = i by omega]
    · rw [if_neg e2]; simp [show (f + k).toNat ≠ i by omega, show (f + k + 1).toNat ≠ i by omega]

/-- C53: an object as constructed, whose grid has not been initialized, is read out of range by the potential. -/
theorem C53_violated_uninitialized (x : ℝ) : compute_pot ⟨30, 1, 1, 1, 10, 100, 0, []⟩ x = none := by
  unfold compute_pot
  simp only
  rw [if_neg (by omega)]
  split <;> rfl

/-! ### Saving and reading back -/

theorem loadLoop_spec (m : Pars) (lines : List (ℝ × ℝ)) (n : Nat) (grid : List ℝ) (hg : n ≤ grid.length)
    (hl : ∀ i, i < n → ∃ l, lines[i]? = some l ∧ (i : Int) = ⌊(l.1 + m.barr + m.width / 2) / m.width⌋) :
    ∃ out, loadLoop m lines n grid = some out ∧ out.length = grid.length ∧ (∀ i, i < n → ∃ l, lines[i]? = some l ∧ out[i]? = some l.2) ∧ ∀ i, n ≤ i → out[i]? = grid[i]? := by
  induction n with
  | zero => exact ⟨grid, rfl, rfl, fun i h => absurd h (Nat.not_lt_zero i), fun _ _ => rfl⟩
  | succ n ih =>
    obtain ⟨out, e, len, v, w⟩ := ih (by omega) fun i hi => hl i (by omega)
    obtain ⟨l, hl1, hl2⟩ := hl n (by omega)
    obtain ⟨xr, vr⟩ := l
    refine ⟨out.set n vr, ?_, by simpa using len, fun i hi => ?_, fun i hi => ?_⟩
    · unfold loadLoop
      rw [e]
      simp only [Option.bind_some, hl1]
      rw [if_neg (by simpa using hl2)]
    · by_cases h : i = n
      · subst h
        exact ⟨(xr, vr), hl1, by rw [List.getElem?_set_self (by omega)]⟩
      · obtain ⟨l, a, b⟩ := v i (by omega)
        exact ⟨l, a, by rw [List.getElem?_set_ne (by omega)]; exact b⟩
    · rw [List.getElem?_set_ne (by omega)]
      exact w i (by omega)

theorem mapM_some {α β : Type} (f : α → Option β) (h : α → β) (l : List α) (hf : ∀ a ∈ l, f a = some (h a)) : l.mapM f = some (l.map h) := by
  induction l with
  | nil => rfl
  | cons a l ih =>
    rw [List.mapM_cons, hf a (by simp), ih fun b hb => hf b (by simp [hb])]
    rfl

/-- C53: a saved potential is read back on all the ranks, the grid being that of the saving program up to the digits printed, provided the positions
are printed with an error smaller than half the width. -/
theorem C53_save_load {m : Pars} (ok : Ok m) (p6 p16 : ℝ → ℝ) (hp : ∀ i : Nat, (i : Int) ≤ m.ngrid → |p6 (-m.barr + i * m.width) - (-m.barr + i * m.width)| < m.width / 2)
    (old : Nat → Pars) (h0 : { old 0 with grid := m.grid } = m) :
    ∃ lines new, save p6 p16 m = some lines ∧ lines.length = (m.ngrid + 1).toNat ∧ load lines old = some new ∧ ∀ rk, new rk = { old rk with grid := m.grid.map p16 } := by
  have hw := ok.width
  have hn := ok.ngrid
  have hlen := ok.grid
  have hs : save p6 p16 m = some ((List.range (m.ngrid + 1).toNat).map fun i : Nat => (p6 (-m.barr + i * m.width), p16 (m.grid.getD i 0))) := by
    unfold save
    refine mapM_some _ _ _ fun i hi => ?_
    have hi' := List.mem_range.1 hi
    rw [at_some (by omega) (by omega)]
    rfl
  have hn0 : (old 0).ngrid = m.ngrid := by rw [← h0]
  have hb0 : (old 0).barr = m.barr := by rw [← h0]
  have hw0 : (old 0).width = m.width := by rw [← h0]
  set lines := (List.range (m.ngrid + 1).toNat).map fun i : Nat => (p6 (-m.barr + i * m.width), p16 (m.grid.getD i 0)) with hlines
  obtain ⟨out, e, len, v, w⟩ := loadLoop_spec (old 0) lines ((old 0).ngrid + 1).toNat
    (((old 0).grid ++ List.replicate ((old 0).ngrid + 1).toNat 0).take ((old 0).ngrid + 1).toNat) (by simp) (fun i hi => by
      rw [hn0] at hi
      refine ⟨(p6 (-m.barr + i * m.width), p16 (m.grid.getD i 0)), by rw [hlines]; simp [hi], ?_⟩
      rw [hb0, hw0]
      symm
      rw [Int.floor_eq_iff]
      have h := abs_lt.1 (hp i (by omega))
      push_cast
      constructor
      · rw [le_div_iff₀ hw]; linarith
      · rw [div_lt_iff₀ hw]; linarith)
  refine ⟨lines, fun rk => { old rk with grid := out }, hs, by rw [hlines]; simp, ?_, fun rk => ?_⟩
  · unfold load
    simp only
    rw [e]; rfl
  · have ho : out = m.grid.map p16 := by
      apply List.ext_getElem?
      intro i
      by_cases hi : i < (m.ngrid + 1).toNat
      · obtain ⟨l, a, b⟩ := v i (by rw [hn0]; exact hi)
        have hl : lines[i]? = some (p6 (-m.barr + i * m.width), p16 (m.grid.getD i 0)) := by rw [hlines]; simp [hi]
        rw [hl] at a
        rw [b, ← Option.some.inj a, List.getElem?_map]
        have : i < m.grid.length := by omega
        simp [List.getD, this]
      · have h1 : out.length = (m.ngrid + 1).toNat := by rw [len]; simp [hn0]
        rw [List.getElem?_eq_none (by omega), List.getElem?_eq_none (by rw [List.length_map]; omega)]
    rw [ho]

/-- C53: if a position is printed so that it falls in another interval, or a line is missing, reading crashes. -/
theorem C53_load_checks (m : Pars) (lines : List (ℝ × ℝ)) (old : Nat → Pars) (i : Nat) (hi : (i : Int) ≤ (old 0).ngrid) (hn : 0 ≤ (old 0).ngrid)
    (hbad : ∀ l, lines[i]? = some l → (i : Int) ≠ ⌊(l.1 + (old 0).barr + (old 0).width / 2) / (old 0).width⌋) : load lines old = none := by
  have h : ∀ n grid, i < n → loadLoop (old 0) lines n grid = none := by
    intro n
    induction n with
    | zero => intro _ h; omega
    | succ n ih =>
      intro grid h
      unfold loadLoop
      by_cases e : i = n
      · subst e
        cases hl : loadLoop (old 0) lines i grid with
        | none => rfl
        | some g =>
          simp only [Option.bind_some]
          cases hli : lines[i]? with
          | none => rfl
          | some l =>
            obtain ⟨xr, vr⟩ := l
            simp only
            rw [if_pos (hbad _ hli)]
      · rw [ih grid (by omega)]; rfl
  unfold load
  simp only
  rw [h _ _ (by omega)]
  rfl

/-! ### Concrete cases -/

/-- the default parameters (barrier 10, width 1, 20 intervals) with an arbitrary history -/
example (hist : List (Int × ℝ)) : ∃ m0 m', init ⟨30, 1, 1, 1, 10, 100, 0, []⟩ = some m0 ∧ m0.ngrid = 20 ∧ updates m0 hist = some m' ∧
    ∀ x, -10 ≤ x → x ≤ 10 → compute_pot m' x = some (potSpec m0 hist x) := by
  obtain ⟨m0, m', h1, h2, h3, h4, -⟩ := C53_potential (m := ⟨30, 1, 1, 1, 10, 100, 0, []⟩) (by norm_num) 10 (by norm_num) (by norm_num) hist
  exact ⟨m0, m', h1, by rw [h2]; norm_num, h3, h4⟩

/-- one update on charge 1/4 with three grid points -/
example : update ⟨0, 2, 4, 1, 1, 100, 2, [0, 0, 0]⟩ 6 (1 / 4) = some ⟨0, 2, 4, 1, 1, 100, 2, [0, 3, 1]⟩ := by
  have hf : ⌊(1 / 4 : ℝ) / 1⌋ = 0 := by rw [Int.floor_eq_iff]; norm_num
  have ht : toInt ((0 : ℝ) + 2 / 2) = 1 := by rw [show (0 : ℝ) + 2 / 2 = ((1 : Int) : ℝ) by norm_num, toInt_int]
  unfold update
  simp only [hf]
  push_cast
  rw [ht]
  unfold add?
  norm_num [List.modify, List.modifyTailIdx, List.modifyTailIdx.go]
  rw [show Int.toNat 2 = 2 from rfl]
  norm_num [List.modifyTailIdx.go]

end

end Nissa.Meta
