/-
Model of the local reduction: /repo/src/base/field.hpp:858-899 (reduceNoPreserve) and /repo/src/linalgs/reduce.hpp:88-160 (locReduce).
The parallel loop is executed in any order (`sched` lists the iterations in the order they are run).
-/
import Mathlib.Algebra.BigOperators.Group.Finset.Basic
import Mathlib.Algebra.BigOperators.Intervals
import Mathlib.Data.List.Perm.Basic
import Mathlib.Tactic.Ring

namespace Nissa.Reduce

/-- One iteration of the kernel of locReduce, reduce.hpp:113-125: `op(buf[first],buf[second])` stores in the first.
Index arithmetic as in the code: islice=ireduction%nslices, ireduction_in_slice=ireduction/nslices. -/
def iter {M : Type} (op : M → M → M) (nslices stride noriPerSlice : Nat) (buf : Nat → M) (ireduction : Nat) : Nat → M :=
  let islice := ireduction % nslices
  let first := ireduction / nslices + noriPerSlice * islice
  let second := first + stride
  Function.update buf first (op (buf first) (buf second))

/-- the PAR loop of one halving executed in the order `sched` -/
def halving {M : Type} (op : M → M → M) (nslices stride noriPerSlice : Nat) (sched : List Nat) (buf : Nat → M) : Nat → M :=
  sched.foldl (iter op nslices stride noriPerSlice) buf

/-- The `while(nper_slice>1)` loop, reduce.hpp:100-128. `sched n` is the order in which the `n` iterations of a kernel are run. -/
def reduceLoop {M : Type} (op : M → M → M) (sched : Nat → List Nat) (nslices noriPerSlice : Nat) : Nat → (Nat → M) → (Nat → M)
  | nper, buf =>
    if h : 1 < nper then
      reduceLoop op sched nslices noriPerSlice ((nper + 1) / 2)
        (halving op nslices ((nper + 1) / 2) noriPerSlice (sched (nper / 2 * nslices)) buf)
    else buf
termination_by nper => nper
decreasing_by omega

/-- `locReduce`, reduce.hpp:83-156; `none` = CRASH. nslices=0 is a division by zero in the code: not modelled -/
def locReduce {M : Type} (op : M → M → M) (sched : Nat → List Nat) (n nslices : Nat) (buf : Nat → M) : Option (Nat → M) :=
  if n % nslices ≠ 0 then none
  else
    let nori := n / nslices
    let out := reduceLoop op sched nslices nori nori buf
    some (fun islice => out (islice * nori))

/-- `Field::reduceNoPreserve` on the local sites, field.hpp:858-899: the same loop with one slice -/
def reduceNoPreserve {M : Type} (op : M → M → M) (sched : Nat → List Nat) (n : Nat) (buf : Nat → M) : M :=
  reduceLoop op sched 1 n n buf 0

/-- a legal schedule runs each iteration exactly once, in whatever order -/
def Legal (sched : Nat → List Nat) : Prop := ∀ n, (sched n).Perm (List.range n)

/-- the buffer of one slice after halving -/
theorem halving_spec {M : Type} (op : M → M → M) {nslices nper nori : Nat} (hs : 0 < nslices) (hn : nper ≤ nori) (h1 : 1 < nper)
    {l : List Nat} (hl : l.Perm (List.range (nper / 2 * nslices))) (buf : Nat → M) (islice j : Nat) (hi : islice < nslices) (hj : j < nper) :
    halving op nslices ((nper + 1) / 2) nori l buf (j + nori * islice) =
      if j < nper / 2 then op (buf (j + nori * islice)) (buf (j + (nper + 1) / 2 + nori * islice)) else buf (j + nori * islice) := by
  have hmem : ∀ k ∈ l, k < nper / 2 * nslices := fun k hk => List.mem_range.1 (hl.mem_iff.1 hk)
  have hnd : l.Nodup := hl.nodup_iff.2 List.nodup_range
  -- decoding of positions
  have dec : ∀ a b s t, a < nori → b < nori → a + nori * s = b + nori * t → a = b ∧ s = t := by
    intro a b s t ha hb h
    have e : a = b := by
      have := congrArg (· % nori) h
      simpa [Nat.add_mul_mod_self_left, Nat.mod_eq_of_lt ha, Nat.mod_eq_of_lt hb] using this
    subst e
    refine ⟨rfl, ?_⟩
    exact Nat.eq_of_mul_eq_mul_left (by omega) (by omega : nori * s = nori * t)
  -- generalised over the part of the schedule already run
  have key : ∀ (l : List Nat), l.Nodup → (∀ k ∈ l, k < nper / 2 * nslices) → ∀ islice j, islice < nslices → j < nper →
      halving op nslices ((nper + 1) / 2) nori l buf (j + nori * islice) =
      if j < nper / 2 ∧ j * nslices + islice ∈ l then op (buf (j + nori * islice)) (buf (j + (nper + 1) / 2 + nori * islice))
      else buf (j + nori * islice) := by
    intro l
    induction l using List.reverseRecOn with
    | nil => intro _ _ islice j _ _; simp [halving]
    | append_singleton l k ih =>
      intro hnd hm islice j hi hj
      have hnd' : l.Nodup := (List.nodup_append.1 hnd).1
      have hkl : k ∉ l := by
        intro hkl
        exact (List.nodup_append.1 hnd).2.2 k hkl k (List.mem_singleton.2 rfl) rfl
      have hk : k < nper / 2 * nslices := hm k (by simp)
      have ih' := ih hnd' (fun a ha => hm a (by simp [ha]))
      unfold halving at ih' ⊢
      rw [List.foldl_append]
      simp only [List.foldl_cons, List.foldl_nil]
      generalize l.foldl (iter op nslices ((nper + 1) / 2) nori) buf = b at ih'
      unfold iter
      have hka : k / nslices < nper / 2 := by rw [Nat.div_lt_iff_lt_mul hs]; exact hk
      have hkb := Nat.mod_lt k hs
      have hkk : k / nslices * nslices + k % nslices = k := by rw [Nat.mul_comm]; exact Nat.div_add_mod k nslices
      by_cases he : j + nori * islice = k / nslices + nori * (k % nslices)
      · obtain ⟨e1, e2⟩ := dec _ _ _ _ (by omega) (by omega) he
        rw [he, Function.update_self]
        have f1 := ih' (k % nslices) (k / nslices) hkb (by omega)
        rw [hkk, if_neg (fun h => hkl h.2)] at f1
        have f2 := ih' (k % nslices) (k / nslices + (nper + 1) / 2) hkb (by omega)
        rw [if_neg (by intro h; omega)] at f2
        rw [f1, show k / nslices + nori * (k % nslices) + (nper + 1) / 2 = k / nslices + (nper + 1) / 2 + nori * (k % nslices) by omega, f2, e1, e2,
          if_pos ⟨hka, by rw [hkk]; simp⟩]
      · rw [Function.update_of_ne he, ih' islice j hi hj]
        have : (j * nslices + islice ∈ l ++ [k]) ↔ j * nslices + islice ∈ l := by
          rw [List.mem_append, List.mem_singleton]
          refine ⟨fun h => h.resolve_right (fun hh => he ?_), Or.inl⟩
          have d1 : k / nslices = j := by
            rw [← hh, Nat.mul_comm, Nat.mul_add_div hs, Nat.div_eq_of_lt hi, Nat.add_zero]
          have d2 : k % nslices = islice := by
            rw [← hh, Nat.mul_comm, Nat.mul_add_mod, Nat.mod_eq_of_lt hi]
          rw [d1, d2]
        simp only [this]
  rw [key l hnd hmem islice j hi hj]
  have : j < nper / 2 → j * nslices + islice ∈ l := by
    intro hjn
    rw [hl.mem_iff, List.mem_range]
    calc j * nslices + islice < j * nslices + nslices := by omega
      _ = (j + 1) * nslices := by ring
      _ ≤ _ := Nat.mul_le_mul_right _ hjn
  by_cases hjn : j < nper / 2
  · rw [if_pos ⟨hjn, this hjn⟩, if_pos hjn]
  · rw [if_neg (fun h => hjn h.1), if_neg hjn]

/-- The tree computed on one slice: independent of schedules, for any operation -/
def tree {M : Type} (op : M → M → M) : Nat → (Nat → M) → M
  | n, f => if h : 1 < n then tree op ((n + 1) / 2) (fun j => if j < n / 2 then op (f j) (f (j + (n + 1) / 2)) else f j) else f 0
termination_by n => n
decreasing_by omega

theorem tree_congr {M : Type} (op : M → M → M) (n : Nat) (f g : Nat → M) (h0 : 0 < n) (h : ∀ j, j < n → f j = g j) : tree op n f = tree op n g := by
  induction n using Nat.strong_induction_on generalizing f g with
  | _ n ih =>
    conv_lhs => rw [tree]
    conv_rhs => rw [tree]
    by_cases h1 : 1 < n
    · rw [dif_pos h1, dif_pos h1]
      refine ih ((n + 1) / 2) (by omega) _ _ (by omega) (fun j hj => ?_)
      split
      · rw [h j (by omega), h (j + (n + 1) / 2) (by omega)]
      · exact h j (by omega)
    · rw [dif_neg h1, dif_neg h1]; exact h 0 h0

theorem reduceLoop_tree {M : Type} (op : M → M → M) {sched : Nat → List Nat} (hl : Legal sched) {nslices nori : Nat} (hs : 0 < nslices)
    (nper : Nat) (h0 : 0 < nper) (hn : nper ≤ nori) (buf : Nat → M) (islice : Nat) (hi : islice < nslices) :
    reduceLoop op sched nslices nori nper buf (nori * islice) = tree op nper (fun j => buf (j + nori * islice)) := by
  induction nper using Nat.strong_induction_on generalizing buf with
  | _ n ih =>
    rw [reduceLoop, tree]
    by_cases h1 : 1 < n
    · rw [dif_pos h1, dif_pos h1, ih ((n + 1) / 2) (by omega) (by omega) (by omega)]
      refine tree_congr op _ _ _ (by omega) (fun j hj => ?_)
      rw [halving_spec op hs hn h1 (hl _) buf islice j hi (by omega)]
    · rw [dif_neg h1, dif_neg h1, Nat.zero_add]

theorem tree_sum {M : Type} [AddCommMonoid M] (n : Nat) (f : Nat → M) (h0 : 0 < n) : tree (· + ·) n f = ∑ j ∈ Finset.range n, f j := by
  induction n using Nat.strong_induction_on generalizing f with
  | _ n ih =>
    rw [tree]
    by_cases h1 : 1 < n
    · rw [dif_pos h1, ih ((n + 1) / 2) (by omega) _ (by omega)]
      have e : n = (n + 1) / 2 + n / 2 := by omega
      conv_rhs => rw [e, Finset.sum_range_add]
      have e2 : (n + 1) / 2 = n / 2 + ((n + 1) / 2 - n / 2) := by omega
      have s1 : ∑ x ∈ Finset.range ((n + 1) / 2), (if x < n / 2 then f x + f (x + (n + 1) / 2) else f x)
          = ∑ x ∈ Finset.range ((n + 1) / 2), (f x + if x < n / 2 then f (x + (n + 1) / 2) else 0) := by
        refine Finset.sum_congr rfl (fun x _ => ?_)
        split <;> simp
      rw [s1, Finset.sum_add_distrib]
      congr 1
      rw [e2, Finset.sum_range_add]
      have z : ∑ x ∈ Finset.range ((n + 1) / 2 - n / 2), (if n / 2 + x < n / 2 then f (n / 2 + x + (n + 1) / 2) else 0) = 0 :=
        Finset.sum_eq_zero (fun x _ => by rw [if_neg (by omega)])
      rw [← e2, z, add_zero]
      refine Finset.sum_congr rfl (fun x hx => ?_)
      rw [if_pos (Finset.mem_range.1 hx), Nat.add_comm]
    · rw [dif_neg h1]
      have : n = 1 := by omega
      subst this; simp

/-- fold of a commutative associative idempotent-free operation: any commutative semigroup -/
theorem tree_fold {M : Type} (op : M → M → M) [Std.Commutative op] [Std.Associative op] (n : Nat) (f : Nat → M) (h0 : 0 < n) :
    ∀ P : M → Prop, (∀ a b, P a → P b → P (op a b)) → (∀ j, j < n → P (f j)) → P (tree op n f) := by
  intro P hop
  induction n using Nat.strong_induction_on generalizing f with
  | _ n ih =>
    intro hf
    rw [tree]
    by_cases h1 : 1 < n
    · rw [dif_pos h1]
      refine ih ((n + 1) / 2) (by omega) _ (by omega) (fun j hj => ?_)
      split
      · exact hop _ _ (hf _ (by omega)) (hf _ (by omega))
      · exact hf _ (by omega)
    · rw [dif_neg h1]; exact hf 0 (by omega)

/-! ### C11 -/

/-- C11: for every number of slices, of elements per slice, content of the buffer and order of execution of the parallel loops, the
value returned for a slice is the sum of the elements of that slice. -/
theorem C11_locReduce_sum {M : Type} [AddCommMonoid M] (sched : Nat → List Nat) (hl : Legal sched) (nslices m : Nat) (hs : 0 < nslices)
    (hm : 0 < m) (buf : Nat → M) :
    ∃ res, locReduce (· + ·) sched (m * nslices) nslices buf = some res ∧
      ∀ islice, islice < nslices → res islice = ∑ j ∈ Finset.range m, buf (islice * m + j) := by
  refine ⟨_, if_neg (by simp), fun islice hi => ?_⟩
  simp only [Nat.mul_div_cancel _ hs]
  rw [Nat.mul_comm islice m, reduceLoop_tree _ hl hs m hm (Nat.le_refl _) buf islice hi, tree_sum m _ hm]
  exact Finset.sum_congr rfl (fun j _ => by rw [Nat.add_comm])

/-- C11: elements not evenly divisible in slices are refused -/
theorem C11_locReduce_crash {M : Type} (op : M → M → M) (sched : Nat → List Nat) (n nslices : Nat) (buf : Nat → M) (h : ¬ nslices ∣ n) :
    locReduce op sched n nslices buf = none := by
  unfold locReduce
  rw [if_pos (fun hh => h (Nat.dvd_of_mod_eq_zero hh))]

/-- C11: reduction of a field over all the ranks (the final MPI_Allreduce is taken to add the contributions of the ranks) -/
theorem C11_field_reduce {M : Type} [AddCommMonoid M] (nranks : Nat) (sched : Nat → Nat → List Nat) (hl : ∀ rk, Legal (sched rk)) (n : Nat) (hn : 0 < n)
    (field : Nat → Nat → M) :
    ∑ rk ∈ Finset.range nranks, reduceNoPreserve (· + ·) (sched rk) n (field rk) =
      ∑ rk ∈ Finset.range nranks, ∑ site ∈ Finset.range n, field rk site := by
  refine Finset.sum_congr rfl (fun rk _ => ?_)
  unfold reduceNoPreserve
  have := reduceLoop_tree (· + ·) (hl rk) (nslices := 1) (nori := n) (by omega) n hn (Nat.le_refl _) (field rk) 0 (by omega)
  rw [Nat.mul_zero] at this
  rw [this, tree_sum n _ hn]
  rfl

/-- C11: whatever the operation (e.g. the non associative floating point sum), the result does not depend on the execution order -/
theorem C11_schedule_independent {M : Type} (op : M → M → M) (sched sched' : Nat → List Nat) (hl : Legal sched) (hl' : Legal sched')
    (n : Nat) (hn : 0 < n) (buf : Nat → M) : reduceNoPreserve op sched n buf = reduceNoPreserve op sched' n buf := by
  unfold reduceNoPreserve
  have a := reduceLoop_tree op hl (nslices := 1) (nori := n) (by omega) n hn (Nat.le_refl _) buf 0 (by omega)
  have b := reduceLoop_tree op hl' (nslices := 1) (nori := n) (by omega) n hn (Nat.le_refl _) buf 0 (by omega)
  rw [Nat.mul_zero] at a b
  rw [a, b]

/-- C11: the max reducer (`if(acc>res) res=acc`) returns an element of the buffer which bounds all of them -/
theorem C11_max {M : Type} [LinearOrder M] (sched : Nat → List Nat) (hl : Legal sched) (n : Nat) (hn : 0 < n) (buf : Nat → M) :
    (∃ j, j < n ∧ reduceNoPreserve (fun res acc => if acc > res then acc else res) sched n buf = buf j) ∧
    ∀ j, j < n → buf j ≤ reduceNoPreserve (fun res acc => if acc > res then acc else res) sched n buf := by
  have a := reduceLoop_tree (fun res acc : M => if acc > res then acc else res) hl (nslices := 1) (nori := n) (by omega) n hn (Nat.le_refl _) buf 0 (by omega)
  rw [Nat.mul_zero] at a
  unfold reduceNoPreserve
  rw [a]
  simp only [Nat.mul_zero, Nat.add_zero]
  clear a
  induction n using Nat.strong_induction_on generalizing buf with
  | _ n ih =>
    rw [tree]
    by_cases h1 : 1 < n
    · rw [dif_pos h1]
      obtain ⟨⟨j, hj, e⟩, hb⟩ := ih ((n + 1) / 2) (by omega) (by omega) (fun j => if j < n / 2 then (if buf (j + (n + 1) / 2) > buf j then buf (j + (n + 1) / 2) else buf j) else buf j)
      constructor
      · rw [e]
        beta_reduce
        split
        · split
          · exact ⟨j + (n + 1) / 2, by omega, rfl⟩
          · exact ⟨j, by omega, rfl⟩
        · exact ⟨j, by omega, rfl⟩
      · intro k hk
        by_cases hk2 : k < (n + 1) / 2
        · refine le_trans ?_ (hb k hk2)
          beta_reduce
          split
          · split
            · exact le_of_lt ‹_›
            · exact le_refl _
          · exact le_refl _
        · refine le_trans ?_ (hb (k - (n + 1) / 2) (by omega))
          beta_reduce
          rw [if_pos (by omega), show k - (n + 1) / 2 + (n + 1) / 2 = k by omega]
          split
          · exact le_refl _
          · exact not_lt.1 ‹_›
    · rw [dif_neg h1]
      have : n = 1 := by omega
      subst this
      exact ⟨⟨0, by omega, rfl⟩, fun j hj => by rw [show j = 0 by omega]⟩

/-- the natural and the reversed order are legal schedules; 3 slices of 5 elements reduce to their sums -/
example : Legal List.range ∧ Legal (fun n => (List.range n).reverse) := ⟨fun _ => List.Perm.refl _, fun _ => List.reverse_perm _⟩
example : (locReduce (· + ·) (fun n => (List.range n).reverse) 15 3 (fun i => i)).map (fun r => [r 0, r 1, r 2]) = some [10, 35, 60] := by decide +kernel

end Nissa.Reduce
