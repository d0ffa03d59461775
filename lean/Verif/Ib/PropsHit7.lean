import Verif.Ib.PropsHit6
import Mathlib.Tactic.FinCases
import Mathlib.Tactic.IntervalCases
import Mathlib.Data.String.Basic

/-! # The looper on the hits: many hits, examples and failures -/

set_option linter.all false

namespace Nissa.Hit

section
variable {N V : Type} [LinearOrder N] (p : Plan N V)

/-- **C64**.  The constructor ends, in less turns than the propagators, and finds the dependencies: each propagator is used by the contractions and sides naming it, and by the needed propagators having it as a source;
the propagators with no dependency are those which are not needed. -/
theorem C64_dependencies (hp : Valid p) {fuel : Nat} (hf : p.qprops.length + 1 < fuel) :
    ∃ pd, construct p fuel = some pd ∧ (∀ n, pd n ≠ ∅ ↔ Needed p n) ∧
      ∀ n t, t ∈ pd n ↔ (∃ i a b, p.contr[i]? = some (a, b) ∧ (n = a ∨ n = b) ∧ t = p.tag2 i) ∨ (∃ s a b, (s, a, b) ∈ p.sides ∧ (n = a ∨ n = b) ∧ t = p.tagS s) ∨ (n ∈ p.sources t ∧ Needed p t) := by
  obtain ⟨pd, h⟩ := construct_ends p hp hf
  have hd := construct_deps p h
  refine ⟨pd, h, hd.needed, fun n t => (hd.mem n t).trans ?_⟩
  unfold BaseTag
  rw [or_assoc]
  refine or_congr ⟨?_, ?_⟩ (or_congr ⟨?_, ?_⟩ Iff.rfl)
  · rintro ⟨x, hx, h1, h2⟩
    exact ⟨x.2, x.1.1, x.1.2, List.mk_mem_zipIdx_iff_getElem?.1 hx, h1, h2⟩
  · rintro ⟨i, a, b, hx, h1, h2⟩
    exact ⟨((a, b), i), List.mk_mem_zipIdx_iff_getElem?.2 hx, h1, h2⟩
  · rintro ⟨x, hx, h1, h2⟩
    exact ⟨x.1, x.2.1, x.2.2, hx, h1, h2⟩
  · rintro ⟨s, a, b, hx, h1, h2⟩
    exact ⟨(s, a, b), hx, h1, h2⟩

/-- state at the beginning of the program -/
def initSt (pd : N → Finset N) : St N V :=
  { propDep := pd, computedProps := ∅, computed2pts := ∅, computedSides := ∅, orderedDep := [], nPassedDep := 0, status := fun _ => none, offloaded := ∅, mem := fun _ => none, disk := fun _ => none,
    lib := fun _ => none, fresh := 0, out2 := [], outS := [], peak := 0 }

theorem initSt_idle (pd : N → Finset N) : Idle p pd (initSt pd) := ⟨rfl, fun _ => rfl, fun _ => rfl, fun _ => rfl, fun _ => rfl, fun _ => Nat.zero_le _⟩

/-- **C64**.  Any number of hits can be done one after the other, with the same looper: each gives all the contractions, with the content due to the sources of the hit; whatever the limit on the memory. -/
theorem C64_hits (hp : Valid p) {fuel : Nat} {pd : N → Finset N} (hc : construct p fuel = some pd) : ∀ (hits : List (N → V)) (st : St N V), Idle p pd st →
    ∃ st', hits.foldlM (fun st src => run p (startHit p src st)) st = .ok st' ∧ Idle p pd st' ∧
      (∃ L : List (List (Nat × V × V)), st'.out2 = st.out2 ++ L.flatten ∧ List.Forall₂ (fun l src => l.Perm (results2 p (content p src))) L hits) ∧
      (∃ L : List (List (N × V × V)), st'.outS = st.outS ++ L.flatten ∧ List.Forall₂ (fun l src => l.Perm (resultsS p (content p src))) L hits) := by
  intro hits
  induction hits with
  | nil => intro st h; exact ⟨st, rfl, h, ⟨[], by simp, .nil⟩, ⟨[], by simp, .nil⟩⟩
  | cons src hits ih =>
    intro st h
    obtain ⟨s1, a1, a2, ⟨L1, a3, a4⟩, ⟨L2, a5, a6⟩⟩ := C64_hit p hp hc src st h
    obtain ⟨s2, b1, b2, ⟨M1, b3, b4⟩, ⟨M2, b5, b6⟩⟩ := ih s1 a2
    refine ⟨s2, ?_, b2, ⟨L1 :: M1, ?_, .cons a4 b4⟩, ⟨L2 :: M2, ?_, .cons a6 b6⟩⟩
    · rw [List.foldlM_cons]; exact (bind_of_ok a1 _).trans b1
    · rw [b3, a3, List.flatten_cons, List.append_assoc]
    · rw [b5, a5, List.flatten_cons, List.append_assoc]

/-- **C64**.  The content of the specification: the original sources are what was drawn, each propagator the result of its generation out of the content of its sources; and it is the only such content. -/
theorem C64_content (hp : Valid p) (src : N → V) : (∀ s ∈ p.ori, content p src s = src s) ∧ (∀ n ∈ p.qprops, content p src n = p.gen n ((p.sources n).map (content p src))) ∧
    ∀ val : N → V, (∀ s ∈ p.ori, val s = src s) → (∀ n ∈ p.qprops, val n = p.gen n ((p.sources n).map val)) → ∀ n ∈ keys p, val n = content p src n := by
  obtain ⟨h1, h2⟩ := content_spec hp src
  refine ⟨h1, h2, fun val g1 g2 n hn => ?_⟩
  rcases List.mem_append.1 hn with h | h
  · rw [g1 n h, h1 n h]
  · have key : ∀ k, ∀ n ∈ p.qprops, p.qprops.idxOf n < k → val n = content p src n := by
      intro k
      induction k with
      | zero => intro n _ h; omega
      | succ k ih =>
        intro n hn hk
        rw [g2 n hn, h2 n hn]
        congr 1
        refine List.map_congr_left fun s hs => ?_
        rcases hp.pos hn hs with h' | ⟨h', h''⟩
        · rw [g1 s h', h1 s h']
        · exact ih s h' (by omega)
    exact key _ n h (Nat.lt_succ_self _)

end

/-! ### Example: two sources, a limit of three propagators -/

/-- a source 0, propagators 1 (of 0), 2 (of 0), 3 (of 1 and 2), 4 (of 1), 5 not needed; contractions of 3 with 1, of 4 with 2 and of 4 with 4; a side with 4 and 1 -/
def exPlan : Plan Nat Nat where
  ori := [0]
  qprops := [1, 2, 3, 4, 5]
  sources := fun n => if n = 1 then [0] else if n = 2 then [0] else if n = 3 then [1, 2] else if n = 4 then [1] else if n = 5 then [3] else []
  contr := [(3, 1), (4, 2), (4, 4)]
  sides := [(7, 4, 1)]
  nMax := 3
  gen := fun n vs => vs.foldl (fun x y => 10 * x + y) n
  tag2 := fun i => 1000 + 2 * i
  tagS := fun s => 1001 + 2 * s

theorem exPlan_needed4 : Needed exPlan 4 := .contr (4, 2) (by simp [exPlan]) 4 (.inl rfl)
theorem exPlan_needed1 : Needed exPlan 1 := .source 4 1 exPlan_needed4 (by simp [exPlan])
theorem exPlan_needed0 : Needed exPlan 0 := .source 1 0 exPlan_needed1 (by simp [exPlan])

theorem exPlan_valid : Valid exPlan := by
  refine ⟨by decide, by decide, ?_, by decide, by decide, by decide, by decide, fun i j h => ?_, fun i j h => ?_, fun i s h => ?_, by decide, by decide, by decide, fun _ => ⟨by decide, fun n hn _ => ?_, fun s hs => ?_, by decide, by decide⟩⟩
  · intro i h
    have h5 : i < 5 := h
    interval_cases i <;> decide +revert
  · simp only [exPlan] at h; omega
  · simp only [exPlan] at h; omega
  · simp only [exPlan] at h; omega
  · exact (by decide : ∀ n ∈ exPlan.qprops, (exPlan.sources n).length + 1 ≤ exPlan.nMax) n hn
  · simp only [exPlan, List.mem_singleton] at hs
    subst hs
    exact exPlan_needed0

/-- how it fails -/
def failure {α : Type} : Except Err α → Option Err
  | .ok _ => none
  | .error e => some e

/-- constructor, sources and run of a hit, in which the source `s` is `s + 100` -/
def oneHit (p : Plan Nat Nat) : Except Err (St Nat Nat) :=
  match construct p (p.qprops.length + 2) with
  | none => .error .crash
  | some pd => run p (startHit p (fun s => s + 100) (initSt pd))

example : ∃ pd, construct exPlan 7 = some pd ∧ Idle exPlan pd (initSt pd) := by
  obtain ⟨pd, h, -⟩ := C64_dependencies exPlan exPlan_valid (fuel := 7) (by decide)
  exact ⟨pd, h, initSt_idle exPlan pd⟩

/-- the results of the example: propagator 2 is written to disk and read back -/
example : (match oneHit exPlan with | .ok st => (st.out2, st.outS, st.peak) | .error _ => ([], [], 0)) =
    ([(0, (1 * 10 + 100 + 30) * 10 + 120, 110), (1, 150, 120), (2, 150, 150)], [(7, 150, 110)], 3) := by decide +kernel

/-- the conditions are needed: with as many propagators in memory as the sources, a source is written to disk just before its use -/
theorem C64_violated_sources_offloaded : failure (oneHit { exPlan with nMax := 2 }) = some .freed := by decide +kernel

/-- the conditions are needed: a contraction with an original source, if the memory is limited -/
theorem C64_violated_source_contracted : failure (oneHit { exPlan with contr := [(3, 0)] }) = some .crash ∧ failure (oneHit { exPlan with contr := [(3, 0)], nMax := 0 }) = none := by decide +kernel

/-- the conditions are needed: an original source not used, if the memory is limited -/
theorem C64_violated_source_unused : failure (oneHit { exPlan with ori := [0, 9] }) = some .crash ∧ failure (oneHit { exPlan with ori := [0, 9], nMax := 0 }) = none := by decide +kernel

/-- a propagator with the name given by the program to a contraction -/
def clashPlan : Plan Nat Nat :=
  { exPlan with qprops := [1, 1000, 3], sources := fun n => if n = 1 then [0] else if n = 1000 then [1] else if n = 3 then [0] else [], contr := [(1, 3), (1000, 1000)], sides := [], nMax := 0 }

/-- the conditions are needed: if a propagator has the name given by the program to a contraction, a propagator is freed before its use -/
theorem C64_violated_name_clash : clashPlan.tag2 0 ∈ clashPlan.qprops ∧ failure (oneHit clashPlan) = some .freed := by decide +kernel

/-! ### The names in the program -/

theorem toString_inj {i j : Nat} (h : toString i = toString j) : i = j := by
  have h' : Nat.repr i = Nat.repr j := h
  unfold Nat.repr at h'
  have := String.ofList_inj.1 h'
  rw [← Nat.ofDigitChars_toDigits (b := 10) (n := i) (by decide) (by decide), this, Nat.ofDigitChars_toDigits (by decide) (by decide)]

/-- **C64**.  The names given by the program to the contractions are distinct, and distinct from those given to the sides; a propagator can have none of them unless its name begins with `2pts_` or `handcuffSide_`. -/
theorem C64_names : Function.Injective (fun i : Nat => "2pts_" ++ toString i) ∧ Function.Injective (fun s : String => "handcuffSide_" ++ s) ∧ (∀ (i : Nat) (s : String), "2pts_" ++ toString i ≠ "handcuffSide_" ++ s) ∧
    ∀ (n : String), (∀ r, n ≠ "2pts_" ++ r) → ∀ i : Nat, "2pts_" ++ toString i ≠ n := by
  refine ⟨fun i j h => toString_inj ((String.append_right_inj _).1 h), fun s t h => (String.append_right_inj _).1 h, fun i s h => ?_, fun n h i e => h _ e.symm⟩
  have := congrArg String.toList h
  rw [String.toList_append, String.toList_append] at this
  simp at this

end Nissa.Hit
