import Verif.Tune.Tuner
import Mathlib.Data.List.Range
import Mathlib.Tactic.Ring
import Mathlib.Tactic.NormNum
import Mathlib.Tactic.Linarith

set_option linter.all false

/-! C78: a launch executes the body once for each index. -/

namespace Nissa.Tune

theorem flat_range (g b min : Nat) :
    ((List.range g).flatMap fun blk => (List.range b).map fun thr => (blk, thr)).map
      (fun t : Nat × Nat => min + t.1 * b + t.2) = List.range' min (g * b) := by
  induction g with
  | zero => simp
  | succ g ih =>
    rw [List.range_succ, List.flatMap_append, List.map_append, ih]
    simp only [List.flatMap_cons, List.flatMap_nil, List.append_nil, List.map_map]
    have : (List.range b).map ((fun t : Nat × Nat => min + t.1 * b + t.2) ∘ fun thr => (g, thr)) =
        List.range' (min + g * b) b := by
      rw [List.range'_eq_map_range]
      apply List.map_congr_left
      intro a _; rfl
    rw [this, Nat.add_mul, Nat.one_mul, List.range'_append_1]

theorem filter_range' (min len n : Nat) (h : len ≤ n) :
    (List.range' min n).filter (fun i => decide (i < min + len)) = List.range' min len := by
  obtain ⟨k, rfl⟩ := Nat.exists_eq_add_of_le h
  rw [← List.range'_append_1, List.filter_append]
  have h1 : (List.range' min len).filter (fun i => decide (i < min + len)) = List.range' min len := by
    rw [List.filter_eq_self]
    intro a ha
    have := (List.mem_range'_1.1 ha).2
    simpa using this
  have h2 : (List.range' (min + len) k).filter (fun i => decide (i < min + len)) = [] := by
    rw [List.filter_eq_nil_iff]
    intro a ha
    have := (List.mem_range'_1.1 ha).1
    simp; omega
  rw [h1, h2, List.append_nil]

theorem gridSize_spec (len b : Nat) (hb : 0 < b) : len ≤ gridSize len b * b ∧ gridSize len b * b < len + b := by
  unfold gridSize
  constructor
  · have := Nat.lt_div_mul_add (a := len + b - 1) hb
    omega
  · have := Nat.div_mul_le_self (len + b - 1) b
    omega

/-- C78: whatever the number of threads per block and the order in which the threads run, the body of the
loop is executed exactly once for each index of the interval and for no other (as long as the loop, with
the threads of the last block, stays within 32 bits). -/
theorem C78_once (min len b : Nat) (hb : 0 < b) (hfit : min + len + b ≤ 2 ^ 32) (sched : List (Nat × Nat))
    (hs : sched.Perm (threads len b)) :
    (executed min len b sched).Perm (List.range' min len) := by
  obtain ⟨h1, h2⟩ := gridSize_spec len b hb
  have hg : gridSize len b % 2 ^ 32 = gridSize len b := by
    apply Nat.mod_eq_of_lt
    have := Nat.le_mul_of_pos_right (gridSize len b) hb
    omega
  have hth : (threads len b).map (fun t => indexOf min b t.1 t.2) = List.range' min (gridSize len b * b) := by
    rw [← flat_range (gridSize len b) b min]
    unfold threads
    rw [hg]
    apply List.map_congr_left
    intro t ht
    unfold indexOf
    apply Nat.mod_eq_of_lt
    simp only [List.mem_flatMap, List.mem_range, List.mem_map] at ht
    obtain ⟨blk, hblk, thr, hthr, rfl⟩ := ht
    dsimp only
    have : (blk + 1) * b ≤ gridSize len b * b := Nat.mul_le_mul_right _ hblk
    rw [Nat.add_mul, Nat.one_mul] at this
    omega
  have := (hs.map (fun t => indexOf min b t.1 t.2)).filter (fun i => decide (i < min + len))
  rw [hth, filter_range' min len _ h1] at this
  exact this

/-- C78: so, if the iterations commute with each other, a launch does what the serial loop does. -/
theorem C78_serial {M : Type} (f : M → Nat → M) (hc : ∀ m i j, f (f m i) j = f (f m j) i)
    (min len b : Nat) (hb : 0 < b) (hfit : min + len + b ≤ 2 ^ 32) (sched : List (Nat × Nat))
    (hs : sched.Perm (threads len b)) (m : M) :
    (executed min len b sched).foldl f m = (List.range' min len).foldl f m := by
  exact (C78_once min len b hb hfit sched hs).foldl_eq' (fun x _ y _ z => hc z x y) m

/-- The hypotheses are met: 10 indices from 3 in blocks of 4, in reverse order; three blocks, the two last
threads do nothing. -/
example : executed 3 10 4 (threads 10 4).reverse = [12, 11, 10, 9, 8, 7, 6, 5, 4, 3] ∧ (threads 10 4).length = 12 := by
  decide +kernel

/-- C78, violated: in a loop of more than 2^32 indices (64 bits) the indices from 2^32 on are never executed. -/
theorem C78_violated_huge (min len b : Nat) (hlen : 2 ^ 32 < min + len) (sched : List (Nat × Nat)) (i : Nat)
    (hi : 2 ^ 32 ≤ i) (him : i < min + len) : i ∉ executed min len b sched := by
  intro h
  unfold executed at h
  obtain ⟨h1, -⟩ := List.mem_filter.1 h
  obtain ⟨t, -, rfl⟩ := List.mem_map.1 h1
  unfold indexOf at hi
  have := Nat.mod_lt (min + t.1 * b + t.2) (show 0 < 2 ^ 32 by norm_num)
  omega

end Nissa.Tune
