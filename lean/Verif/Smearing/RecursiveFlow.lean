import Mathlib.Analysis.SpecialFunctions.Pow.Real
import Mathlib.Data.List.Sort
import Mathlib.Logic.Function.Iterate

/-! # Recursive Wilson flow

Models `recursive_Wflower_t`, `/repo/src/operations/smearing/recursive_Wflower.hpp:14-193`.  A configuration is an element of any type `C` and one step of the flow
(`Wflow_lx_conf` with the given time step and directions, always the same) is any function `F`.  The lowest level holds a pointer to the configuration of the user: its
value here is that of the configuration of the user.  Ints are unbounded, doubles are real numbers. -/

set_option linter.all false

namespace Nissa.RecFlow

/-- `Wflow_lev_t`.  `recursive_Wflower.hpp:17-24` -/
structure Lev (C : Type) where
  conf : C
  nWflow : Int
  units : Int

/-- `off()`.  `:22-23` -/
def Lev.off {C : Type} (l : Lev C) : Int := l.units.tdiv 2

/-- the levels.  `:26-33` -/
structure Flower (C : Type) where
  nl : Nat
  lev : Nat → Lev C

variable {C : Type}

def Flower.set (w : Flower C) (i : Nat) (l : Lev C) : Flower C := { w with lev := Function.update w.lev i l }

/-- `bind_conf`.  `:76-89` -/
def bind_conf (w : Flower C) (ori : C) : Flower C :=
  let w := w.set 0 { w.lev 0 with units := 200000 }
  { w with lev := fun i => { w.lev i with conf := ori, nWflow := 0 } }

/-- the units of a level, as an `int`.  `:50,62` -/
noncomputable def unitsOf (m ns : Int) (il : Nat) : Int :=
  let nb : ℝ := (m : ℝ) ^ ((1 : ℝ) / ns)
  ⌊max 1 ((m : ℝ) / nb ^ il + 1e-10)⌋

/-- the constructor; none is CRASH.  `:36-70` -/
noncomputable def construct (nrecu nflows : Int) (ori : C) : Option (Flower C) :=
  let ns := nrecu
  let m := nflows
  if ns < 0 ∨ ns > m then none else
  let nl := ns.toNat + 1
  let w : Flower C := ⟨nl, fun il => ⟨ori, 0, unitsOf m ns il⟩⟩
  if (w.lev (nl - 1)).units ≠ 1 then none else
  some (bind_conf w ori)

/-- `find_closest_smaller_nWflow`.  `:92-110` -/
def find_closest (w : Flower C) (n : Int) : Nat :=
  (List.range w.nl).foldl (fun ic is => if (w.lev is).nWflow ≤ n ∧ (w.lev is).nWflow > (w.lev ic).nWflow then is else ic) 0

/-- `copy_level`.  `:113-117` -/
def copy_level (w : Flower C) (idest isou : Nat) : Flower C :=
  w.set idest { w.lev idest with conf := (w.lev isou).conf, nWflow := (w.lev isou).nWflow }

/-- `update_level`: the levels and the number of steps done.  `:120-135` -/
def update_level (F : C → C) (w : Flower C) (is : Nat) (n : Int) (nevol : Nat) : Flower C × Nat :=
  if (w.lev is).nWflow < n then
    update_level F (w.set is { w.lev is with conf := F (w.lev is).conf, nWflow := (w.lev is).nWflow + 1 }) is n (nevol + 1)
  else (w, nevol)
termination_by (n - (w.lev is).nWflow).toNat
decreasing_by simp only [Flower.set, Function.update_self]; omega

/-- `get_smallest_nWflow_rounded`; the division of the code truncates.  `:138-145` -/
def get_smallest_rounded (w : Flower C) (n : Int) (is : Nat) : Int :=
  let units := (w.lev is).units
  let off := (w.lev is).off
  let targ := ((n + units - off).tdiv units - 1) * units + off
  if targ < 0 then 0 else targ

/-- the path before sorting.  `:155-170` -/
def order_path (w : Flower C) (n : Int) : List (Int × Nat) :=
  (List.range' 1 (w.nl - 1)).filterMap (fun is =>
    let ncur := (w.lev is).nWflow
    let ntarg := get_smallest_rounded w n is
    if ncur ≠ ntarg ∧ ntarg ≥ 0 ∧ ntarg ≤ n then some (ntarg, is) else none)

/-- order of `std::pair` -/
def pairLe (a b : Int × Nat) : Bool := decide (a.1 < b.1 ∨ (a.1 = b.1 ∧ a.2 ≤ b.2))

/-- body of the loop on the path.  `:177-195` -/
def path_step (F : C → C) (s : Flower C × Nat) (p : Int × Nat) : Flower C × Nat :=
  let ntarg := p.1
  let il := p.2
  let ic := find_closest s.1 ntarg
  let w := if ic ≠ il then copy_level s.1 il ic else s.1
  if (w.lev il).nWflow ≠ ntarg then
    let r := update_level F w il ntarg 0
    (r.1, s.2 + r.2)
  else (w, s.2)

/-- `update`: the levels and the returned number of steps.  `:148-198` -/
def update (F : C → C) (w : Flower C) (n : Int) : Flower C × Nat :=
  ((order_path w n).mergeSort pairLe).foldl (path_step F) (w, 0)

/-- the configuration of the user -/
def Flower.conf (w : Flower C) : C := (w.lev (w.nl - 1)).conf

/-- what the user does with a flower -/
inductive Op (C : Type)
  | bind (c : C)
  | update (n : Int)

def step (F : C → C) (w : Flower C) : Op C → Flower C
  | .bind c => bind_conf w c
  | .update n => (update F w n).1

def run (F : C → C) (w : Flower C) (ops : List (Op C)) : Flower C := ops.foldl (step F) w

/-! ### Specification -/

/-- the configuration last bound and the number of steps last requested (negative requests do nothing) -/
def asked (c : C) (ops : List (Op C)) : C × Nat :=
  ops.foldl (fun s o => match o with
    | .bind c => (c, 0)
    | .update n => if n < 0 then s else (s.1, n.toNat)) (c, 0)

/-! ### Proofs -/

/-- every level holds the flown configuration -/
structure Inv (F : C → C) (c : C) (w : Flower C) : Prop where
  nl : 2 ≤ w.nl
  pos : ∀ i, 0 ≤ (w.lev i).nWflow
  conf : ∀ i, (w.lev i).conf = F^[(w.lev i).nWflow.toNat] c
  zero : (w.lev 0).nWflow = 0
  units : ∀ i, 1 ≤ (w.lev i).units
  last : (w.lev (w.nl - 1)).units = 1

theorem update_level_spec (F : C → C) (w : Flower C) (is : Nat) (n : Int) (k : Nat) (h : 0 ≤ (w.lev is).nWflow) (hn : (w.lev is).nWflow ≤ n) :
    update_level F w is n k = (w.set is { w.lev is with conf := F^[(n - (w.lev is).nWflow).toNat] (w.lev is).conf, nWflow := n }, k + (n - (w.lev is).nWflow).toNat) := by
  induction hm : (n - (w.lev is).nWflow).toNat generalizing w k with
  | zero =>
    have e : (w.lev is).nWflow = n := by omega
    rw [update_level, if_neg (by omega)]
    simp only [Function.iterate_zero, id_eq, Nat.add_zero, Prod.mk.injEq, and_true]
    subst e
    unfold Flower.set
    simp
  | succ m ih =>
    have hlt : (w.lev is).nWflow < n := by omega
    rw [update_level, if_pos hlt]
    rw [ih _ _ (by simp [Flower.set]; omega) (by simp [Flower.set]; omega) (by simp [Flower.set]; omega)]
    simp [Flower.set, Function.iterate_succ_apply, Nat.add_comm, Nat.add_left_comm]

theorem find_closest_spec (w : Flower C) (n : Int) (h0 : (w.lev 0).nWflow ≤ n) :
    (w.lev (find_closest w n)).nWflow ≤ n ∧ (find_closest w n = 0 ∨ find_closest w n < w.nl) ∧
      ∀ i, i < w.nl → (w.lev i).nWflow ≤ n → (w.lev i).nWflow ≤ (w.lev (find_closest w n)).nWflow := by
  unfold find_closest
  have key : ∀ (l : List Nat) (a : Nat), (w.lev a).nWflow ≤ n →
      let r := l.foldl (fun ic is => if (w.lev is).nWflow ≤ n ∧ (w.lev is).nWflow > (w.lev ic).nWflow then is else ic) a
      (w.lev r).nWflow ≤ n ∧ (r = a ∨ r ∈ l) ∧ (w.lev a).nWflow ≤ (w.lev r).nWflow ∧ ∀ i ∈ l, (w.lev i).nWflow ≤ n → (w.lev i).nWflow ≤ (w.lev r).nWflow := by
    intro l
    induction l with
    | nil => intro a ha; simpa using ha
    | cons x xs ih =>
      intro a ha
      simp only [List.foldl_cons]
      by_cases hx : (w.lev x).nWflow ≤ n ∧ (w.lev x).nWflow > (w.lev a).nWflow
      · rw [if_pos hx]
        obtain ⟨h1, h2, h3, h4⟩ := ih x hx.1
        refine ⟨h1, ?_, by omega, ?_⟩
        · rcases h2 with h2 | h2
          · right; rw [h2]; simp
          · right; simp [h2]
        · intro i hi hin
          rcases List.mem_cons.1 hi with rfl | hi
          · exact h3
          · exact h4 i hi hin
      · rw [if_neg hx]
        obtain ⟨h1, h2, h3, h4⟩ := ih a ha
        refine ⟨h1, ?_, h3, ?_⟩
        · rcases h2 with h2 | h2
          · left; exact h2
          · right; simp [h2]
        · intro i hi hin
          rcases List.mem_cons.1 hi with rfl | hi
          · have : ¬ (w.lev i).nWflow > (w.lev a).nWflow := fun h => hx ⟨hin, h⟩
            omega
          · exact h4 i hi hin
  obtain ⟨h1, h2, h3, h4⟩ := key (List.range w.nl) 0 h0
  refine ⟨h1, ?_, fun i hi hin => h4 i (List.mem_range.2 hi) hin⟩
  rcases h2 with h2 | h2
  · exact Or.inl h2
  · exact Or.inr (List.mem_range.1 h2)

/-- a step of the path brings its level to the target, evolving from the closest level -/
theorem path_step_spec (F : C → C) (c : C) (w : Flower C) (hi : Inv F c w) (k : Nat) (t : Int) (il : Nat) (ht : 0 ≤ t) :
    ∃ ic, (∀ i, i < w.nl → (w.lev i).nWflow ≤ t → (w.lev i).nWflow ≤ (w.lev ic).nWflow) ∧ (w.lev ic).nWflow ≤ t ∧ 0 ≤ (w.lev ic).nWflow ∧
      path_step F (w, k) (t, il) = (w.set il ⟨F^[t.toNat] c, t, (w.lev il).units⟩, k + (t - (w.lev ic).nWflow).toNat) := by
  have h0 : (w.lev 0).nWflow ≤ t := by rw [hi.zero]; exact ht
  obtain ⟨h1, h2, h3⟩ := find_closest_spec w t h0
  refine ⟨find_closest w t, h3, h1, hi.pos _, ?_⟩
  unfold path_step
  simp only
  generalize find_closest w t = ic at *
  have e : ∀ w' : Flower C, w' = w.set il ⟨(w.lev ic).conf, (w.lev ic).nWflow, (w.lev il).units⟩ →
      (if (w'.lev il).nWflow ≠ t then ((update_level F w' il t 0).1, k + (update_level F w' il t 0).2) else (w', k)) =
        (w.set il ⟨F^[t.toNat] c, t, (w.lev il).units⟩, k + (t - (w.lev ic).nWflow).toNat) := by
    intro w' hw'
    have hl : w'.lev il = ⟨(w.lev ic).conf, (w.lev ic).nWflow, (w.lev il).units⟩ := by rw [hw']; simp [Flower.set]
    rw [hl]
    have hc := hi.conf ic
    have hp := hi.pos ic
    by_cases ht' : (w.lev ic).nWflow = t
    · rw [if_neg (by simpa using ht'), hw', hc, ht']
      simp
    · rw [if_pos (by simpa using ht'), update_level_spec F w' il t 0 (by rw [hl]; exact hp) (by rw [hl]; exact h1)]
      rw [hl]
      simp only [hw', Flower.set, Function.update_idem, hc, ← Function.iterate_add_apply]
      rw [show (t - (w.lev ic).nWflow).toNat + (w.lev ic).nWflow.toNat = t.toNat by omega]
      simp
  apply e
  by_cases hne : ic = il
  · subst hne
    rw [if_neg (by simp)]
    unfold Flower.set
    simp
  · rw [if_pos hne]; rfl

theorem inv_set {F : C → C} {c : C} {w : Flower C} (hi : Inv F c w) {il : Nat} (h0 : il ≠ 0) {t : Int} (ht : 0 ≤ t) :
    Inv F c (w.set il ⟨F^[t.toNat] c, t, (w.lev il).units⟩) := by
  refine ⟨hi.nl, fun i => ?_, fun i => ?_, ?_, fun i => ?_, ?_⟩
  · by_cases h : i = il
    · subst h; simpa [Flower.set] using ht
    · simpa [Flower.set, Function.update_of_ne h] using hi.pos i
  · by_cases h : i = il
    · subst h; simp [Flower.set]
    · simpa [Flower.set, Function.update_of_ne h] using hi.conf i
  · simpa [Flower.set, Function.update_of_ne (Ne.symm h0)] using hi.zero
  · by_cases h : i = il
    · subst h; simpa [Flower.set] using hi.units i
    · simpa [Flower.set, Function.update_of_ne h] using hi.units i
  · show ((w.set il _).lev (w.nl - 1)).units = 1
    by_cases h : w.nl - 1 = il
    · subst h; simpa [Flower.set] using hi.last
    · simpa [Flower.set, Function.update_of_ne h] using hi.last

/-- the loop on a path: the levels in it reach their target, the others are left alone -/
theorem fold_spec (F : C → C) (c : C) : ∀ (path : List (Int × Nat)) (w : Flower C) (k : Nat), Inv F c w → (∀ p ∈ path, 0 ≤ p.1 ∧ p.2 ≠ 0) →
    (path.map Prod.snd).Nodup →
    let r := path.foldl (path_step F) (w, k)
    Inv F c r.1 ∧ r.1.nl = w.nl ∧ (∀ p ∈ path, (r.1.lev p.2).nWflow = p.1) ∧ ∀ i, i ∉ path.map Prod.snd → r.1.lev i = w.lev i := by
  intro path
  induction path with
  | nil => intro w k hi _ _; exact ⟨hi, rfl, by simp, fun _ _ => rfl⟩
  | cons p ps ih =>
    intro w k hi hp hnd
    obtain ⟨t, il⟩ := p
    have ht := hp (t, il) (by simp)
    obtain ⟨ic, -, -, -, hs⟩ := path_step_spec F c w hi k t il ht.1
    simp only [List.foldl_cons, hs]
    rw [List.map_cons, List.nodup_cons] at hnd
    obtain ⟨r1, r2, r3, r4⟩ := ih _ (k + (t - (w.lev ic).nWflow).toNat) (inv_set hi ht.2 ht.1) (fun p h => hp p (by simp [h])) hnd.2
    refine ⟨r1, r2, ?_, ?_⟩
    · intro p h
      rcases List.mem_cons.1 h with rfl | h
      · rw [r4 _ hnd.1]; simp [Flower.set]
      · exact r3 p h
    · intro i hi'
      simp only [List.map_cons, List.mem_cons, not_or] at hi'
      rw [r4 i hi'.2]
      simp [Flower.set, Function.update_of_ne hi'.1]

/-- the rounded target does not exceed the requested one, and is exactly it for units of one step -/
theorem rounded_le (w : Flower C) (n : Int) (hn : 0 ≤ n) (is : Nat) (hu : 1 ≤ (w.lev is).units) :
    0 ≤ get_smallest_rounded w n is ∧ get_smallest_rounded w n is ≤ n ∧ ((w.lev is).units = 1 → get_smallest_rounded w n is = n) := by
  unfold get_smallest_rounded Lev.off
  generalize (w.lev is).units = u at *
  simp only
  have ho : u.tdiv 2 = u / 2 := Int.tdiv_eq_ediv_of_nonneg (by omega)
  rw [ho, Int.tdiv_eq_ediv_of_nonneg (by omega)]
  have hq := Int.ediv_mul_le (n + u - u / 2) (show u ≠ 0 by omega)
  refine ⟨?_, ?_, ?_⟩
  · split <;> omega
  · have e : ((n + u - u / 2) / u - 1) * u = (n + u - u / 2) / u * u - u := by ring
    rw [e]
    split <;> omega
  · intro h1
    subst h1
    norm_num
    omega

theorem path_mem (w : Flower C) (n : Int) (t : Int) (is : Nat) :
    (t, is) ∈ order_path w n ↔ 1 ≤ is ∧ is < w.nl ∧ t = get_smallest_rounded w n is ∧ (w.lev is).nWflow ≠ t ∧ 0 ≤ t ∧ t ≤ n := by
  unfold order_path
  rw [List.mem_filterMap]
  constructor
  · rintro ⟨i, hi, h⟩
    rw [List.mem_range'_1] at hi
    simp only at h
    split at h
    · rename_i hc
      simp only [Option.some.injEq, Prod.mk.injEq] at h
      obtain ⟨rfl, rfl⟩ := h
      exact ⟨hi.1, by omega, rfl, hc.1, hc.2.1, hc.2.2⟩
    · cases h
  · rintro ⟨h1, h2, rfl, h4, h5, h6⟩
    refine ⟨is, List.mem_range'_1.2 (by omega), ?_⟩
    simp only
    rw [if_pos ⟨h4, h5, h6⟩]

theorem path_nodup (w : Flower C) (n : Int) : ((order_path w n).map Prod.snd).Nodup := by
  have : ((order_path w n).map Prod.snd).Sublist (List.range' 1 (w.nl - 1)) := by
    unfold order_path
    generalize List.range' 1 (w.nl - 1) = l
    induction l with
    | nil => simp
    | cons a l ih =>
      rw [List.filterMap_cons]
      simp only
      split
      · exact ih.cons a
      · rename_i hc
        split at hc
        · cases hc; simpa using ih
        · cases hc
  exact this.nodup (List.nodup_range' 1)

/-- all the levels after an update -/
theorem update_spec (F : C → C) (c : C) (w : Flower C) (hi : Inv F c w) (n : Int) (hn : 0 ≤ n) :
    Inv F c (update F w n).1 ∧ (update F w n).1.nl = w.nl ∧ ∀ i, 1 ≤ i → i < w.nl → ((update F w n).1.lev i).nWflow = get_smallest_rounded w n i := by
  have hperm := List.mergeSort_perm (order_path w n) pairLe
  have hp : ∀ p ∈ (order_path w n).mergeSort pairLe, 0 ≤ p.1 ∧ p.2 ≠ 0 := by
    rintro ⟨t, is⟩ h
    have := (path_mem w n t is).1 (hperm.mem_iff.1 h)
    exact ⟨this.2.2.2.2.1, by have := this.1; show is ≠ 0; omega⟩
  have hnd : (((order_path w n).mergeSort pairLe).map Prod.snd).Nodup := (hperm.map _).nodup_iff.2 (path_nodup w n)
  obtain ⟨r1, r2, r3, r4⟩ := fold_spec F c _ w 0 hi hp hnd
  refine ⟨r1, r2, fun i h1 h2 => ?_⟩
  by_cases hm : (get_smallest_rounded w n i, i) ∈ order_path w n
  · exact r3 _ (hperm.mem_iff.2 hm)
  · have hb := rounded_le w n hn i (hi.units i)
    have : (w.lev i).nWflow = get_smallest_rounded w n i := by
      by_contra hne
      exact hm ((path_mem w n _ i).2 ⟨h1, h2, rfl, hne, hb.1, hb.2.1⟩)
    have hni : i ∉ ((order_path w n).mergeSort pairLe).map Prod.snd := by
      intro h
      obtain ⟨⟨t, is⟩, ht, rfl⟩ := List.mem_map.1 h
      have h' := (path_mem w n t is).1 (hperm.mem_iff.1 ht)
      exact h'.2.2.2.1 (by rw [h'.2.2.1]; exact this)
    show ((List.foldl (path_step F) (w, 0) ((order_path w n).mergeSort pairLe)).1.lev i).nWflow = _
    rw [r4 i hni, this]

theorem update_neg (F : C → C) (w : Flower C) (n : Int) (hn : n < 0) : update F w n = (w, 0) := by
  have : order_path w n = [] := by
    rw [List.eq_nil_iff_forall_not_mem]
    rintro ⟨t, is⟩ h
    have := (path_mem w n t is).1 h
    omega
  unfold update
  rw [this, List.mergeSort_nil]
  rfl

theorem bind_inv (F : C → C) (c : C) (w : Flower C) (hnl : 2 ≤ w.nl) (hu : ∀ i, 1 ≤ (w.lev i).units) (hl : (w.lev (w.nl - 1)).units = 1) :
    Inv F c (bind_conf w c) := by
  refine ⟨hnl, fun i => le_refl _, fun i => rfl, rfl, fun i => ?_, ?_⟩
  · show 1 ≤ ((w.set 0 { w.lev 0 with units := 200000 }).lev i).units
    by_cases h : i = 0
    · subst h; simp [Flower.set]
    · simpa [Flower.set, Function.update_of_ne h] using hu i
  · show ((w.set 0 { w.lev 0 with units := 200000 }).lev (w.nl - 1)).units = 1
    have : w.nl - 1 ≠ 0 := by omega
    simpa [Flower.set, Function.update_of_ne this] using hl

theorem units_last (m ns : Int) (h1 : 1 ≤ ns) (h2 : ns ≤ m) : unitsOf m ns ns.toNat = 1 := by
  unfold unitsOf
  simp only
  have hm : (0 : ℝ) < m := by exact_mod_cast (by omega : 0 < m)
  have hn : (ns : ℝ) ≠ 0 := by exact_mod_cast (by omega : ns ≠ 0)
  have e : ((m : ℝ) ^ ((1 : ℝ) / ns)) ^ ns.toNat = m := by
    rw [← Real.rpow_natCast, ← Real.rpow_mul hm.le]
    have : ((ns.toNat : ℕ) : ℝ) = ns := by
      have : ((ns.toNat : ℕ) : ℤ) = ns := Int.toNat_of_nonneg (by omega)
      exact_mod_cast this
    rw [this, one_div_mul_cancel hn, Real.rpow_one]
  rw [e, div_self hm.ne', Int.floor_eq_iff]
  constructor <;> norm_num

theorem units_pos (m ns : Int) (il : Nat) : 1 ≤ unitsOf m ns il := by
  unfold unitsOf
  simp only
  rw [Int.le_floor]
  simp

theorem construct_some (nrecu nflows : Int) (h1 : 1 ≤ nrecu) (h2 : nrecu ≤ nflows) (ori : C) :
    ∃ w, construct nrecu nflows ori = some w ∧ w.nl = nrecu.toNat + 1 ∧ ∀ F : C → C, Inv F ori w := by
  unfold construct
  simp only
  rw [if_neg (by omega), if_neg (by simpa using units_last nflows nrecu h1 h2)]
  refine ⟨_, rfl, rfl, fun F => bind_inv F ori _ ?_ (fun i => units_pos _ _ i) ?_⟩
  · show 2 ≤ nrecu.toNat + 1
    omega
  · show unitsOf nflows nrecu (nrecu.toNat + 1 - 1) = 1
    exact units_last nflows nrecu h1 h2

theorem run_inv (F : C → C) (ops : List (Op C)) : ∀ (c : C) (w : Flower C) (k : Nat), Inv F c w → (w.lev (w.nl - 1)).nWflow = k →
    let s := ops.foldl (fun s o => match o with
      | .bind c => (c, 0)
      | .update n => if n < 0 then s else (s.1, n.toNat)) (c, k)
    Inv F s.1 (run F w ops) ∧ ((run F w ops).lev ((run F w ops).nl - 1)).nWflow = s.2 := by
  induction ops with
  | nil => intro c w k hi hk; exact ⟨hi, hk⟩
  | cons o ops ih =>
    intro c w k hi hk
    unfold run at *
    simp only [List.foldl_cons]
    cases o with
    | bind c' =>
      exact ih c' (bind_conf w c') 0 (bind_inv F c' w hi.nl hi.units hi.last) rfl
    | update n =>
      simp only [step]
      by_cases hn : n < 0
      · rw [if_pos hn, update_neg F w n hn]
        exact ih c w k hi hk
      · rw [if_neg hn]
        obtain ⟨u1, u2, u3⟩ := update_spec F c w hi n (by omega)
        refine ih c _ n.toNat u1 ?_
        have := hi.nl
        rw [u2, u3 _ (by omega) (by omega), (rounded_le w n (by omega) _ (hi.units _)).2.2 hi.last]
        omega

/-- C45: with at least one level of recursion the constructor succeeds and after any sequence of requests, in any order (also flowing back), the configuration of the
user is the one last bound flown from scratch by the number of steps last requested -/
theorem C45_flow (F : C → C) (nrecu nflows : Int) (h1 : 1 ≤ nrecu) (h2 : nrecu ≤ nflows) (ori : C) (ops : List (Op C)) :
    ∃ w, construct nrecu nflows ori = some w ∧ (run F w ops).conf = F^[(asked ori ops).2] (asked ori ops).1 := by
  obtain ⟨w, hw, -, hi⟩ := construct_some nrecu nflows h1 h2 ori
  refine ⟨w, hw, ?_⟩
  have h0 : (w.lev (w.nl - 1)).nWflow = (0 : Nat) := by
    unfold construct at hw
    simp only at hw
    split at hw
    · cases hw
    · split at hw
      · cases hw
      · cases hw; rfl
  obtain ⟨r1, r2⟩ := run_inv F ops ori w 0 (hi F) h0
  unfold Flower.conf
  rw [r1.conf, r2]
  rfl

/-- the cost of the loop on a sorted path -/
theorem fold_cost (F : C → C) (c : C) : ∀ (path : List (Int × Nat)) (w : Flower C) (k : Nat) (t0 : Int), Inv F c w → (∀ p ∈ path, t0 ≤ p.1 ∧ p.2 ≠ 0 ∧ p.2 < w.nl) →
    path.Pairwise (fun a b => a.1 ≤ b.1) → 0 ≤ t0 → (k : Int) ≤ t0 → (∃ i, i < w.nl ∧ (w.lev i).nWflow = t0) → ∀ n, t0 ≤ n → (∀ p ∈ path, p.1 ≤ n) →
    ((path.foldl (path_step F) (w, k)).2 : Int) ≤ n := by
  intro path
  induction path with
  | nil => intro w k t0 _ _ _ _ hk _ n hn _; simpa using hk.trans hn
  | cons p ps ih =>
    intro w k t0 hi hp hs h0 hk ⟨i, hin, hit⟩ n hn hpn
    obtain ⟨t, il⟩ := p
    have ht := hp (t, il) (by simp)
    obtain ⟨ic, hc, hc1, hc2, e⟩ := path_step_spec F c w hi k t il (h0.trans ht.1)
    rw [List.foldl_cons, e]
    rw [List.pairwise_cons] at hs
    have := hc i hin (by rw [hit]; exact ht.1)
    refine ih _ _ t (inv_set hi ht.2.1 (h0.trans ht.1)) (fun p h => ⟨hs.1 p h, (hp p (by simp [h])).2⟩) hs.2 (h0.trans ht.1) ?_ ⟨il, ht.2.2, by simp [Flower.set]⟩ n
      (hpn (t, il) (by simp)) (fun p h => hpn p (by simp [h]))
    omega

/-- C45: an update never needs more steps than flowing from scratch (the levels are updated in increasing order) -/
theorem C45_cost (F : C → C) (nrecu nflows : Int) (h1 : 1 ≤ nrecu) (h2 : nrecu ≤ nflows) (ori : C) (ops : List (Op C)) (n : Nat) :
    ∃ w, construct nrecu nflows ori = some w ∧ (update F (run F w ops) n).2 ≤ n := by
  obtain ⟨w, hw, -, hi⟩ := construct_some nrecu nflows h1 h2 ori
  refine ⟨w, hw, ?_⟩
  have h0 : (w.lev (w.nl - 1)).nWflow = (0 : Nat) := by
    unfold construct at hw
    simp only at hw
    split at hw
    · cases hw
    · split at hw
      · cases hw
      · cases hw; rfl
  obtain ⟨r1, r2⟩ := run_inv F ops ori w 0 (hi F) h0
  generalize run F w ops = w' at *
  have hperm := List.mergeSort_perm (order_path w' n) pairLe
  have hsort : ((order_path w' n).mergeSort pairLe).Pairwise (fun a b => a.1 ≤ b.1) := by
    have := List.pairwise_mergeSort (le := pairLe) (by
      intro a b c hab hbc
      unfold pairLe at *
      simp only [decide_eq_true_eq] at *
      omega) (by
      intro a b
      unfold pairLe
      simp only [Bool.or_eq_true, decide_eq_true_eq]
      omega) (order_path w' n)
    refine this.imp ?_
    intro a b h
    unfold pairLe at h
    simp only [decide_eq_true_eq] at h
    omega
  have := fold_cost F _ _ w' 0 0 r1 (fun p hp => ?_) hsort (le_refl _) (by simp) ⟨0, by have := r1.nl; omega, r1.zero⟩ n (by omega) (fun p hp => ?_)
  · have h' : ((update F w' n).2 : Int) ≤ n := this
    exact_mod_cast h'
  · have := (path_mem w' n p.1 p.2).1 (hperm.mem_iff.1 hp)
    exact ⟨this.2.2.2.2.1, by omega, this.2.1⟩
  · exact ((path_mem w' n p.1 p.2).1 (hperm.mem_iff.1 hp)).2.2.2.2.2

/-- C45, violation: without recursion and a single flow the constructor accepts the parameters, but no update ever flows the configuration -/
theorem C45_violated_no_recursion (F : C → C) (ori : C) (n : Int) : ∃ w, construct 0 1 ori = some w ∧ (update F w n).1.conf = ori ∧ (update F w n).2 = 0 := by
  have hu : unitsOf 1 0 0 = 1 := by
    unfold unitsOf
    simp only [pow_zero, div_one]
    rw [Int.floor_eq_iff]
    constructor <;> norm_num
  refine ⟨_, by unfold construct; simp only; rw [if_neg (by norm_num), if_neg (by simpa using hu)], ?_⟩
  have hp : ∀ w : Flower C, w.nl = 1 → order_path w n = [] := by
    intro w h; unfold order_path; rw [h]; rfl
  unfold update
  rw [hp _ rfl, List.mergeSort_nil]
  exact ⟨rfl, rfl⟩

/-- C45, violation: without recursion and more than one flow the constructor aborts -/
theorem C45_violated_no_recursion_aborts (nflows : Int) (h : 1 < nflows) (ori : C) : construct 0 nflows ori = none := by
  have hu : unitsOf nflows 0 0 ≠ 1 := by
    unfold unitsOf
    simp only [pow_zero, div_one]
    have h2 : (2 : ℝ) ≤ nflows := by exact_mod_cast h
    have : (2 : Int) ≤ ⌊max (1 : ℝ) ((nflows : ℝ) + 1e-10)⌋ := by
      rw [Int.le_floor]
      refine le_max_of_le_right ?_
      push_cast
      norm_num at *
      linarith
    omega
  unfold construct
  simp only
  rw [if_neg (by omega), if_pos (by simpa using hu)]

/-- a nontrivial sequence: flow to 7, back to 3, bind another configuration, flow to 2 -/
example : ∃ w, construct 2 9 (0 : Nat) = some w ∧ (run (· + 1) w [.update 7, .update 3]).conf = 3 ∧
    (run (· + 1) w [.update 7, .update 3, .bind 10, .update 2]).conf = 12 := by
  obtain ⟨w, hw, h⟩ := C45_flow (· + 1) 2 9 (by decide) (by decide) (0 : Nat) [.update 7, .update 3]
  obtain ⟨w', hw', h'⟩ := C45_flow (· + 1) 2 9 (by decide) (by decide) (0 : Nat) [.update 7, .update 3, .bind 10, .update 2]
  have : w' = w := Option.some.inj (hw'.symm.trans hw)
  subst this
  exact ⟨w', hw, by rw [h]; rfl, by rw [h']; rfl⟩

end Nissa.RecFlow
