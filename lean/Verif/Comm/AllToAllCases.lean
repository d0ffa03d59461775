/- C24: concrete cases: non-trivial instances of the hypotheses, and what happens without them. -/
import Verif.Comm.PropsAllToAll2
import Mathlib.Tactic.IntervalCases
set_option linter.all false

namespace Nissa.A2A

/-! ### An instance of the hypotheses: three ranks, all sending to all, with different amounts -/

/-- two elements to itself, one to each of the others -/
def exAll : Nat → ScatterList
  | 0 => [(0, 0*3+0), (1, 3*3+1), (2, 1*3+0), (3, 2*3+2)]
  | 1 => [(3, 0*3+1), (2, 1*3+1), (1, 2*3+0), (0, 0*3+2)]
  | 2 => [(0, 1*3+2), (1, 3*3+2), (2, 3*3+0), (3, 2*3+1)]
  | _ => []

instance (N : Nat) (sl : Nat → ScatterList) : Decidable (Balanced N sl) := by unfold Balanced; infer_instance

theorem distinct_of (N : Nat) (sl : Nat → ScatterList)
    (h : ((List.range N).all fun q => (List.range N).all fun q' => (List.range (sl q).length).all fun i => (List.range (sl q').length).all fun i' =>
      decide (((sl q).getD i (0, 0)).2 = ((sl q').getD i' (0, 0)).2 → q = q' ∧ i = i')) = true) : Distinct N sl := by
  intro q q' i i' e e' hq hq' hi hi' he
  have l1 : i < (sl q).length := by
    by_contra hh
    rw [List.getElem?_eq_none (by omega)] at hi; cases hi
  have l2 : i' < (sl q').length := by
    by_contra hh
    rw [List.getElem?_eq_none (by omega)] at hi'; cases hi'
  simp only [List.all_eq_true, List.mem_range, decide_eq_true_eq] at h
  refine h q hq q' hq' i l1 i' l2 ?_
  rw [List.getD_eq_getElem?_getD, List.getD_eq_getElem?_getD, hi, hi']; exact he

example : Balanced 3 exAll ∧ Distinct 3 exAll ∧ (∀ r, r < 3 → SelfCopyOk 3 exAll r) ∧ (∀ r, r < 3 → ((exAll r).map Prod.fst).Nodup) ∧
    (∀ r, r < 3 → SelfCopyOkInv 3 exAll r) := by
  refine ⟨by decide, distinct_of _ _ (by decide), ?_, by decide, ?_⟩
  · intro r hr h
    interval_cases r
    · exact ⟨0, by decide, by decide⟩
    · exact ⟨1, by decide, by decide⟩
    · exact ⟨2, by decide, by decide⟩
  · intro r hr h
    interval_cases r
    · exact ⟨0, by decide, by decide⟩
    · exact ⟨1, by decide, by decide⟩
    · exact ⟨2, by decide, by decide⟩

/-! ### Unbalanced lists -/

/-- rank 1 sends one element to rank 0, which sends nothing -/
def exUnb : Nat → ScatterList
  | 1 => [(0, 0)]
  | _ => []

/-- the communicators of all the ranks -/
def commsOf (N : Nat) (sl : Nat → ScatterList) (junk : Nat → Nat) (r : Nat) : Comm := (setup N sl junk r).getD (part1Of N sl r)

/-- C24 does not hold if a rank receives a number of elements different from that it sends: the last loop runs on the number of elements
sent, so that the element is not placed at its destination, and the sender reads its incoming buffer, which has no element, out of bounds -/
theorem C24_violated_unbalanced :
    Distinct 2 exUnb ∧ (∀ r < 2, (setup 2 exUnb (fun _ => 7) r).isSome = true) ∧
    ((communicate (commsOf 2 exUnb (fun _ => 7)) 0 (List.range (commsOf 2 exUnb (fun _ => 7) 0).nelOut) (fun _ => 7) (fun _ _ => 1) (fun _ => 0)).map (fun res => res 0) = some 0) ∧
    communicate (commsOf 2 exUnb (fun _ => 7)) 1 (List.range (commsOf 2 exUnb (fun _ => 7) 1).nelOut) (fun _ => 7) (fun _ _ => 1) (fun _ => 0) = none := by
  refine ⟨distinct_of _ _ (by decide), by decide, by decide, ?_⟩
  rw [← Option.isNone_iff_eq_none]
  decide

/-! ### Wrong number of elements copied locally -/

/-- balanced lists: rank 1 gets from 0 and itself, sends to itself (2 elements) and to 2 (1 element) -/
def exSelf : Nat → ScatterList
  | 0 => [(0, 0*3+1)]
  | 1 => [(0, 1*3+1), (1, 2*3+1), (2, 0*3+2)]
  | 2 => [(0, 0*3+0)]
  | _ => []

/-- C24 does not hold for balanced lists without duplications if the amount copied locally is read at the wrong position: rank 1 copies
one element out of two, and the other destination receives uninitialised memory -/
theorem C24_violated_local_copy :
    Balanced 3 exSelf ∧ Distinct 3 exSelf ∧ (∀ r < 3, (setup 3 exSelf (fun _ => 7) r).isSome = true) ∧ (1, 2*3+1) ∈ exSelf 1 ∧
    (communicate (commsOf 3 exSelf (fun _ => 7)) 1 (List.range 3) (fun _ => 7) (fun q i => 10 * (q + 1) + i) (fun _ => 0)).map (fun res => res 2) = some 7 := by
  refine ⟨by decide, distinct_of _ _ (by decide), by decide, by decide, by decide⟩

/-- three ranks, the last receives from all and sends to itself and to rank 0 only -/
def exOob : Nat → ScatterList
  | 0 => [(0, 0*3+2), (1, 0*3+1)]
  | 1 => [(0, 1*3+2)]
  | 2 => [(0, 2*3+2), (1, 0*3+0), (2, 1*3+0)]
  | _ => []

/-- C24: the position used for the amount to be copied locally can be outside of the array -/
theorem C24_violated_out_of_bounds :
    Balanced 3 exOob ∧ Distinct 3 exOob ∧ (∀ r < 3, (setup 3 exOob (fun _ => 7) r).isSome = true) ∧
    communicate (commsOf 3 exOob (fun _ => 7)) 2 (List.range 3) (fun _ => 7) (fun q i => 10 * (q + 1) + i) (fun _ => 0) = none := by
  refine ⟨by decide, distinct_of _ _ (by decide), by decide, ?_⟩
  rw [← Option.isNone_iff_eq_none]
  decide

/-- C24: nothing is sent by rank 0 and two others send to it: the incoming offsets vanish, and the explanations overwrite each other; the
check finds no duplicated destination only if the uninitialised memory has none -/
def exZero : Nat → ScatterList
  | 1 => [(0, 0)]
  | 2 => [(0, 3)]
  | _ => []

theorem C24_violated_offsets :
    Distinct 3 exZero ∧ (commsOf 3 exZero (fun i => i + 7) 0).listFr = [1, 2] ∧ (commsOf 3 exZero (fun i => i + 7) 0).inOff 1 = 0 ∧
    (commsOf 3 exZero (fun i => i + 7) 0).inDest 1 = 8 := by
  refine ⟨distinct_of _ _ (by decide), by decide, by decide, by decide⟩

end Nissa.A2A
