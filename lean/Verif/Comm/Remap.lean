/-
vector_remap_t: /repo/src/operations/remap_vector.hpp:25-74. A remapping given by an index function is run through the all-to-all
communicator.
-/
import Verif.Comm.AllToAllCases
import Mathlib.Algebra.BigOperators.Group.Finset.Basic
import Mathlib.Algebra.BigOperators.Group.Finset.Sigma
set_option linter.all false

namespace Nissa.A2A

/-- constructor of vector_remap_t, remap_vector.hpp:36-54: the list of `rank`, if `idx rank i` is the pair (destination rank, destination
element) returned by the index function on that rank. The check on the destination rank is in the hypothesis of the theorems. -/
def remapList (N : Nat) (n : Nat → Nat) (idx : Nat → Nat → Nat × Nat) (rank : Nat) : ScatterList :=
  (List.range (n rank)).map (fun i => (i, (idx rank i).2 * N + (idx rank i).1))

/-- result of building the communicator on all the ranks and communicating -/
def RunsTo {α : Type} (N : Nat) (sl : Nat → ScatterList) (junk : Nat → Nat) (junk' : Nat → α) (order : Nat → List Nat) (inp out res : Nat → Nat → α) : Prop :=
  ∃ C : Nat → Comm, (∀ r, r < N → setup N sl junk r = some (C r)) ∧ ∀ r, r < N → communicate C r (order r) junk' inp (out r) = some (res r)

/-- a one-to-one correspondence between the elements of all the ranks before and after -/
structure Bij (N : Nat) (n m : Nat → Nat) (idx inv : Nat → Nat → Nat × Nat) : Prop where
  to_lt : ∀ r i, r < N → i < n r → (idx r i).1 < N ∧ (idx r i).2 < m (idx r i).1
  from_lt : ∀ r i, r < N → i < m r → (inv r i).1 < N ∧ (inv r i).2 < n (inv r i).1
  left : ∀ r i, r < N → i < n r → inv (idx r i).1 (idx r i).2 = (r, i)
  right : ∀ r i, r < N → i < m r → idx (inv r i).1 (inv r i).2 = (r, i)

theorem Bij.symm {N : Nat} {n m : Nat → Nat} {idx inv : Nat → Nat → Nat × Nat} (h : Bij N n m idx inv) : Bij N m n inv idx :=
  ⟨h.from_lt, h.to_lt, h.right, h.left⟩

variable {N : Nat} {n m : Nat → Nat} {idx inv : Nat → Nat → Nat × Nat}

theorem entry_rank {N a b : Nat} (h : b < N) : (a * N + b) % N = b ∧ (a * N + b) / N = a := by
  constructor
  · rw [Nat.add_comm, Nat.add_mul_mod_self_right, Nat.mod_eq_of_lt h]
  · rw [Nat.add_comm, Nat.add_mul_div_right _ _ (by omega), Nat.div_eq_of_lt h, Nat.zero_add]

theorem remapList_get {r i : Nat} {e : Nat × Nat} (h : (remapList N n idx r)[i]? = some e) : i < n r ∧ e = (i, (idx r i).2 * N + (idx r i).1) := by
  unfold remapList at h
  rw [List.getElem?_map] at h
  by_cases hi : i < n r
  · rw [List.getElem?_range hi] at h
    exact ⟨hi, (Option.some.inj h).symm⟩
  · rw [List.getElem?_eq_none (by simpa using hi)] at h; cases h

theorem mem_remapList {r : Nat} {e : Nat × Nat} : e ∈ remapList N n idx r ↔ ∃ i, i < n r ∧ e = (i, (idx r i).2 * N + (idx r i).1) := by
  unfold remapList
  rw [List.mem_map]
  exact ⟨fun ⟨i, hi, h⟩ => ⟨i, List.mem_range.1 hi, h.symm⟩, fun ⟨i, hi, h⟩ => ⟨i, List.mem_range.2 hi, h.symm⟩⟩

theorem remap_distinct (h : Bij N n m idx inv) : Distinct N (remapList N n idx) := by
  intro q q' i i' e e' hq hq' hi hi' he
  obtain ⟨l1, rfl⟩ := remapList_get hi
  obtain ⟨l2, rfl⟩ := remapList_get hi'
  simp only at he
  have r1 := (h.to_lt q i hq l1).1
  have r2 := (h.to_lt q' i' hq' l2).1
  have e1 : (idx q i).1 = (idx q' i').1 := by rw [← (entry_rank (a := (idx q i).2) r1).1, he, (entry_rank r2).1]
  have e2 : (idx q i).2 = (idx q' i').2 := by rw [← (entry_rank (a := (idx q i).2) r1).2, he, (entry_rank r2).2]
  have := h.left q i hq l1
  rw [e1, e2, h.left q' i' hq' l2] at this
  exact ⟨(congrArg Prod.fst this).symm, (congrArg Prod.snd this).symm⟩

theorem remap_amount (h : Bij N n m idx inv) (r q : Nat) (hr : r < N) : amount N (remapList N n idx) r q = ((Finset.range (n r)).filter (fun i => (idx r i).1 = q)).card := by
  unfold amount remapList
  rw [List.filter_map, List.length_map]
  have : List.filter ((fun e => decide (e.2 % N = q)) ∘ fun i => (i, (idx r i).2 * N + (idx r i).1)) (List.range (n r)) = (List.range (n r)).filter (fun i => decide ((idx r i).1 = q)) := by
    refine List.filter_congr (fun i hi => ?_)
    simp only [Function.comp]
    rw [(entry_rank (h.to_lt r i hr (List.mem_range.1 hi)).1).1]
  rw [this]
  rfl

/-- number of elements received by each rank -/
theorem remap_received (h : Bij N n m idx inv) (r : Nat) (hr : r < N) :
    ((List.range N).map (fun q => ((remapList N n idx q).filter (fun e => e.2 % N = r)).length)).sum = m r := by
  have : ((List.range N).map (fun q => ((remapList N n idx q).filter (fun e => e.2 % N = r)).length)).sum = ∑ q ∈ Finset.range N, ((Finset.range (n q)).filter (fun i => (idx q i).1 = r)).card := by
    exact congrArg List.sum (List.map_congr_left (g := fun q => ((Finset.range (n q)).filter (fun i => (idx q i).1 = r)).card) (fun q hq => remap_amount h q r (List.mem_range.1 hq)))
  rw [this, ← Finset.card_sigma]
  rw [show m r = (Finset.range (m r)).card by simp]
  refine Finset.card_bij' (fun (p : (_ : Nat) × Nat) _ => (idx p.1 p.2).2) (fun j _ => ⟨(inv r j).1, (inv r j).2⟩) ?_ ?_ ?_ ?_
  · rintro ⟨q, i⟩ hp
    simp only [Finset.mem_sigma, Finset.mem_range, Finset.mem_filter] at hp ⊢
    have := (h.to_lt q i hp.1 hp.2.1).2
    rwa [hp.2.2] at this
  · intro j hj
    simp only [Finset.mem_sigma, Finset.mem_range, Finset.mem_filter] at hj ⊢
    refine ⟨(h.from_lt r j hr hj).1, (h.from_lt r j hr hj).2, ?_⟩
    rw [h.right r j hr hj]
  · rintro ⟨q, i⟩ hp
    simp only [Finset.mem_sigma, Finset.mem_range, Finset.mem_filter] at hp
    have := h.left q i hp.1 hp.2.1
    rw [hp.2.2] at this
    simp only [this]
  · intro j hj
    simp only [Finset.mem_range] at hj
    rw [h.right r j hr hj]

theorem remap_balanced (h : Bij N n n idx inv) : Balanced N (remapList N n idx) := by
  intro r hr
  rw [remap_received h r hr]
  simp [remapList]

/-- a remapping given by a one-to-one correspondence that keeps the number of elements of each rank moves each element to its place -/
theorem remap_deliver {α : Type} (hN : 0 < N) (h : Bij N n n idx inv) (hs : ∀ r, r < N → SelfCopyOk N (remapList N n idx) r)
    (junk : Nat → Nat) (junk' : Nat → α) (order : Nat → List Nat) (ho : ∀ r, r < N → (order r).Perm (List.range (n r))) (inp out : Nat → Nat → α) :
    (∃ res, RunsTo N (remapList N n idx) junk junk' order inp out res) ∧ ∀ res, RunsTo N (remapList N n idx) junk junk' order inp out res →
      (∀ r i, r < N → i < n r → res (idx r i).1 (idx r i).2 = inp r i) ∧ (∀ r x, r < N → n r ≤ x → res r x = out r x) := by
  obtain ⟨hset, hrun⟩ := C24_deliver_partial (α := α) N hN (remapList N n idx) (remap_balanced h) (remap_distinct h) hs junk
  have ho' : ∀ r, r < N → (order r).Perm (List.range (remapList N n idx r).length) := fun r hr => by
    rw [show (remapList N n idx r).length = n r by simp [remapList]]; exact ho r hr
  have key : ∀ C, (∀ r, r < N → setup N (remapList N n idx) junk r = some (C r)) → ∃ res : Nat → Nat → α, (∀ r, r < N → communicate C r (order r) junk' inp (out r) = some (res r)) ∧
      (∀ r i, r < N → i < n r → res (idx r i).1 (idx r i).2 = inp r i) ∧ (∀ r x, r < N → n r ≤ x → res r x = out r x) := by
    intro C hC
    obtain ⟨res, h1, h2, h3⟩ := hrun C hC order ho' junk' inp out
    refine ⟨res, h1, fun r i hr hi => ?_, fun r x hr hx => ?_⟩
    · have := h2 r hr _ (mem_remapList.2 ⟨i, hi, rfl⟩)
      simp only at this
      obtain ⟨e1, e2⟩ := entry_rank (a := (idx r i).2) (h.to_lt r i hr hi).1
      rwa [e1, e2] at this
    · refine h3 r hr x (fun q hq e he hx' => ?_)
      obtain ⟨i, hi, rfl⟩ := mem_remapList.1 he
      simp only at hx'
      obtain ⟨e1, e2⟩ := entry_rank (a := (idx q i).2) (h.to_lt q i hq hi).1
      obtain ⟨e3, e4⟩ := entry_rank (a := x) hr
      have hr' : (idx q i).1 = r := by rw [← e1, hx', e3]
      have hx2 : (idx q i).2 = x := by rw [← e2, hx', e4]
      have := (h.to_lt q i hq hi).2
      rw [hr', hx2] at this
      omega
  constructor
  · let C : Nat → Comm := fun r => if h : r < N then (hset r h).choose else part1Of N (remapList N n idx) 0
    have hC : ∀ r, r < N → setup N (remapList N n idx) junk r = some (C r) := fun r hr => by
      show _ = some (dite _ _ _)
      rw [dif_pos hr]; exact (hset r hr).choose_spec
    obtain ⟨res, h1, -⟩ := key C hC
    exact ⟨res, C, hC, h1⟩
  · rintro res ⟨C, hC, h1⟩
    obtain ⟨res', h1', h2, h3⟩ := key C hC
    have heq : ∀ r, r < N → res r = res' r := fun r hr => Option.some.inj ((h1 r hr).symm.trans (h1' r hr))
    refine ⟨fun r i hr hi => ?_, fun r x hr hx => ?_⟩
    · rw [heq _ (h.to_lt r i hr hi).1]; exact h2 r i hr hi
    · rw [heq r hr]; exact h3 r x hr hx

theorem foldlM_congr {β : Type} (f g : β → Nat → Option β) (ks : List Nat) (h : ∀ k ∈ ks, ∀ b, f b k = g b k) (b : β) : ks.foldlM f b = ks.foldlM g b := by
  induction ks generalizing b with
  | nil => rfl
  | cons k ks ih =>
    rw [List.foldlM_cons, List.foldlM_cons, h k (by simp) b]
    congr 1
    funext b'
    exact ih (fun x hx => h x (by simp [hx])) b'

/-- the set up depends only on the lists of the existing ranks -/
theorem setup_congr (N : Nat) (sl sl' : Nat → ScatterList) (h : ∀ r, r < N → sl r = sl' r) (junk : Nat → Nat) (r : Nat) (hr : r < N) : setup N sl junk r = setup N sl' junk r := by
  have hN : 0 < N := by omega
  have hp : ∀ q, q < N → part1Of N sl q = part1Of N sl' q := by
    intro q hq
    unfold part1Of
    have hl : ∀ start, otherLoop N q (fun r => countTo N (sl r)) start = otherLoop N q (fun r => countTo N (sl' r)) start := by
      intro start
      unfold otherLoop
      refine congrFun (congrFun (congrArg _ ?_) _) _
      funext other delta
      simp only
      rw [h _ (Nat.mod_lt _ hN)]
    have : otherTemp N q (fun r => countTo N (sl r)) = otherTemp N q (fun r => countTo N (sl' r)) := by
      unfold otherTemp; rw [hl, hl]
    rw [this, h q hq]
  unfold setup
  simp only
  have hrecv : recvAll r (part1Of N sl r).listFr (part1Of N sl r).nperFr (part1Of N sl r).inOff (fun q => (part1Of N sl q).listTo) (fun q => (part1Of N sl q).nperTo)
      (fun q => (part1Of N sl q).outOff) (fun q => (fill N (part1Of N sl q) junk (sl q)).expl) (List.range (part1Of N sl r).listFr.length) junk =
    recvAll r (part1Of N sl' r).listFr (part1Of N sl' r).nperFr (part1Of N sl' r).inOff (fun q => (part1Of N sl' q).listTo) (fun q => (part1Of N sl' q).nperTo)
      (fun q => (part1Of N sl' q).outOff) (fun q => (fill N (part1Of N sl' q) junk (sl' q)).expl) (List.range (part1Of N sl' r).listFr.length) junk := by
    rw [hp r hr]
    unfold recvAll
    refine foldlM_congr _ _ _ (fun k hk b => ?_) junk
    have hq : (part1Of N sl' r).listFr.getD k 0 < N := (mem_rankList.1 (idxOf_getD _ (rankList_nodup N _) k (List.mem_range.1 hk)).1).1
    simp only [hp _ hq, h _ hq]
  rw [hrecv, hp r hr, h r hr]

/-- when nothing leaves its rank the local copy is right -/
theorem self_ok (h : Bij N n m idx inv) (hself : ∀ r i, r < N → i < n r → (idx r i).1 = r) (r : Nat) (hr : r < N) : SelfCopyOk N (remapList N n idx) r := by
  refine C24_symmetric_ok N _ r hr (fun q hq => ?_)
  have key : ∀ r q, r < N → q < N → Sends N (remapList N n idx) r q → r = q := by
    rintro r q hr hq ⟨e, he, h2⟩
    obtain ⟨i, hi, rfl⟩ := mem_remapList.1 he
    simp only at h2
    rw [(entry_rank (h.to_lt r i hr hi).1).1, hself r i hr hi] at h2
    exact h2
  constructor
  · intro hs; have := key r q hr hq hs; subst this; exact hs
  · intro hs; have := key q r hq hr hs; subst this; exact hs

end Nissa.A2A
