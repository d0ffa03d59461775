/-
Model of the registry of nissa vectors: /repo/src/base/vectors.cpp:99-195,248-285 and vectors.hpp:41-58.
The vectors are nodes of a doubly linked list living in a heap: address -> header. 0 is the null pointer. Payload, names and flags are
not modelled.
-/
import Mathlib.Logic.Function.Basic
import Mathlib.Data.List.Basic
import Mathlib.Algebra.BigOperators.Group.List.Basic
set_option linter.all false

namespace Nissa.Vect

/-- nissa_vect, vectors.hpp:41-58, the members which matter -/
structure Node where
  nel : Nat
  sizePerEl : Nat
  prev : Nat
  next : Nat

/-- bytes of padding, vectors.hpp:56-57 (int64_t 8, int 4, pointers 8, uint32_t 4 bytes, 3 strings of 20) -/
def padLen : Nat := (16 - (2 * 8 + 3 * 20 + 4 + 2 * 8 + 4) % 16) % 16

/-- sizeof(nissa_vect), vectors.hpp:41-58 -/
def headerSize : Nat := 2 * 8 + 3 * 20 + 4 + 2 * 8 + 4 + padLen

/-- globals of vectors.hpp:84-90 and the memory -/
structure State where
  heap : Nat → Option Node
  last : Nat
  req : Int
  maxReq : Int

/-- initialize_main_vect, vectors.cpp:115-135; `main` is the address of the static main_vect -/
def init (main : Nat) : State := ⟨Function.update (fun _ => none) main (some ⟨0, 0, 0, 0⟩), main, 0, 0⟩

/-- change of a node through a pointer; none = invalid access -/
def modify (h : Nat → Option Node) (a : Nat) (f : Node → Node) : Option (Nat → Option Node) :=
  (h a).map (fun n => Function.update h a (some (f n)))

/-- internal_nissa_malloc, vectors.cpp:138-190; `nv` is the address returned by malloc. Returns also the pointer given to the user.
none = CRASH or invalid access. -/
def malloc (st : State) (nv nel sizePerEl : Nat) : Option (State × Nat) :=
  let size := nel * sizePerEl
  let h := Function.update st.heap nv (some ⟨nel, sizePerEl, st.last, 0⟩)
  (modify h st.last (fun n => { n with next := nv })).bind (fun h =>
    if (nv + headerSize) % 16 ≠ 0 then none
    else some (⟨h, nv, st.req + size, max st.maxReq (st.req + size)⟩, nv + headerSize))

/-- internal_nissa_free, vectors.cpp:248-285; `ptr` is the user pointer. The check for NULL is on the address of the pointer, and never
triggers. none = invalid access -/
def free (st : State) (ptr : Nat) : Option State :=
  let vect := ptr - headerSize
  (st.heap vect).bind (fun v =>
    (modify st.heap v.prev (fun n => { n with next := v.next })).bind (fun h =>
      let r := if v.next ≠ 0 then (modify h v.next (fun n => { n with prev := v.prev })).map (fun h => (h, st.last)) else some (h, v.prev)
      r.map (fun r => ⟨Function.update r.1 vect none, r.2, st.req - v.sizePerEl * v.nel, st.maxReq⟩)))

/-- the loop of print_all_vect_content and compute_vect_memory_usage, vectors.cpp:86-112, at most `fuel` turns: the headers visited -/
def walk (h : Nat → Option Node) : Nat → Nat → List (Nat × Node)
  | 0, _ => []
  | fuel + 1, a => match h a with
    | none => []
    | some n => (a, n) :: (if n.next = 0 then [] else walk h fuel n.next)

/-- compute_vect_memory_usage, vectors.cpp:99-112 -/
def memoryUsage (h : Nat → Option Node) (main fuel : Nat) : Int := ((walk h fuel main).map (fun p => ((p.2.nel * p.2.sizePerEl : Nat) : Int))).sum

/-! ### Specification -/

inductive Op
  /-- address returned by the system, number of elements, their size -/
  | malloc (addr nel sizePerEl : Nat)
  | free (ptr : Nat)

def step (st : State) : Op → Option State
  | .malloc a n s => (malloc st a n s).map Prod.fst
  | .free p => free st p

/-- the live vectors (address of the header, number of elements, size), in order of allocation, according to the requests alone -/
def live : List Op → List (Nat × Nat × Nat)
  | ops => ops.foldl (fun l o => match o with
    | .malloc a n s => l ++ [(a, n, s)]
    | .free p => l.filter (fun v => v.1 + headerSize != p)) []

/-- total memory of a list of vectors -/
def totMem (l : List (Nat × Nat × Nat)) : Int := (l.map (fun v => ((v.2.1 * v.2.2 : Nat) : Int))).sum

/-- malloc returns an aligned address not in use; the user frees only what is alive -/
def Legal (main : Nat) (ops : List Op) : Op → Prop
  | .malloc a _ _ => a ≠ 0 ∧ a % 16 = 0 ∧ a ≠ main ∧ ∀ v ∈ live ops, v.1 ≠ a
  | .free p => ∃ v ∈ live ops, v.1 + headerSize = p

/-- histories: operations so far, states gone through and current state -/
inductive Run (main : Nat) : List Op → List State → State → Prop
  | nil : Run main [] [init main] (init main)
  | snoc {ops sts st o st'} : Run main ops sts st → Legal main ops o → step st o = some st' → Run main (ops ++ [o]) (sts ++ [st']) st'

/-! ### Proofs -/

/-- doubly linked segment -/
def Seg (h : Nat → Option Node) : Nat → List (Nat × Nat × Nat) → Nat → Prop
  | _, [], _ => True
  | p, v :: r, nxt => h v.1 = some ⟨v.2.1, v.2.2, p, (r.head?.map Prod.fst).getD nxt⟩ ∧ Seg h v.1 r nxt

/-- address of the last of a segment -/
def lastA : Nat → List (Nat × Nat × Nat) → Nat
  | p, [] => p
  | _, v :: r => lastA v.1 r

theorem lastA_append (p : Nat) (A B : List (Nat × Nat × Nat)) : lastA p (A ++ B) = lastA (lastA p A) B := by
  induction A generalizing p with
  | nil => rfl
  | cons a A ih => exact ih a.1

theorem seg_append (h : Nat → Option Node) (p : Nat) (A B : List (Nat × Nat × Nat)) (nxt : Nat) :
    Seg h p (A ++ B) nxt ↔ Seg h p A ((B.head?.map Prod.fst).getD nxt) ∧ Seg h (lastA p A) B nxt := by
  induction A generalizing p with
  | nil => simp [Seg, lastA]
  | cons a A ih =>
    rw [List.cons_append, Seg, Seg, ih, and_assoc]
    cases A with
    | nil => simp [lastA]
    | cons b A => simp [lastA]

theorem seg_frame {h h' : Nat → Option Node} {p : Nat} {A : List (Nat × Nat × Nat)} {nxt : Nat} (hs : Seg h p A nxt)
    (he : ∀ v ∈ A, h' v.1 = h v.1) : Seg h' p A nxt := by
  induction A generalizing p with
  | nil => trivial
  | cons a A ih => exact ⟨by rw [he a (by simp)]; exact hs.1, ih hs.2 (fun v hv => he v (by simp [hv]))⟩

structure Inv (main : Nat) (l : List (Nat × Nat × Nat)) (st : State) : Prop where
  seg : Seg st.heap 0 ((main, 0, 0) :: l) 0
  nd : (main :: l.map Prod.fst).Nodup
  nz : ∀ v ∈ (main, 0, 0) :: l, v.1 ≠ 0
  out : ∀ a, a ∉ main :: l.map Prod.fst → st.heap a = none
  last : st.last = lastA 0 ((main, 0, 0) :: l)
  req : st.req = totMem l
  max : st.req ≤ st.maxReq

theorem inv_init {main : Nat} (hm : main ≠ 0) : Inv main [] (init main) := by
  refine ⟨⟨by simp [init], trivial⟩, by simp, by simpa using hm, ?_, rfl, rfl, by simp [init]⟩
  intro a ha
  simp at ha
  simp [init, Function.update_of_ne ha]

theorem totMem_append (l l' : List (Nat × Nat × Nat)) : totMem (l ++ l') = totMem l + totMem l' := by simp [totMem]

theorem malloc_inv {main : Nat} {l : List (Nat × Nat × Nat)} {st : State} (hi : Inv main l st) {a n s : Nat} (h0 : a ≠ 0) (ha : a % 16 = 0)
    (hm : a ≠ main) (hl : ∀ v ∈ l, v.1 ≠ a) :
    ∃ st', malloc st a n s = some (st', a + headerSize) ∧ Inv main (l ++ [(a, n, s)]) st' ∧ st'.maxReq = max st.maxReq st'.req := by
  obtain ⟨A, e, hA⟩ : ∃ A e, (main, 0, 0) :: l = A ++ [e] := by
    have hne : (main, 0, 0) :: l ≠ [] := by simp
    exact ⟨_, _, (List.dropLast_append_getLast hne).symm⟩
  have hlast : st.last = e.1 := by rw [hi.last, hA, lastA_append]; rfl
  have hseg := hi.seg
  rw [hA, seg_append] at hseg
  obtain ⟨s1, s2, -⟩ := hseg
  have hmem : ∀ v ∈ A ++ [e], v.1 ≠ a := by
    rw [← hA]; intro v hv
    rcases List.mem_cons.1 hv with rfl | hv
    · exact Ne.symm hm
    · exact hl v hv
  have hae : e.1 ≠ a := hmem e (by simp)
  have hnd : ((A ++ [e]).map Prod.fst).Nodup := by rw [← hA]; exact hi.nd
  have hAe : ∀ v ∈ A, v.1 ≠ e.1 := by
    intro v hv he
    rw [List.map_append, List.nodup_append] at hnd
    exact hnd.2.2 v.1 (List.mem_map_of_mem hv) e.1 (by simp) he
  simp only [List.head?_nil, Option.map_none, Option.getD_none] at s2
  unfold malloc modify
  simp only [hlast, Function.update_of_ne hae, s2, Option.map_some, Option.bind_some]
  have hal : (a + headerSize) % 16 = 0 := by
    have : headerSize = 112 := by decide
    omega
  rw [if_neg (by omega)]
  refine ⟨_, rfl, ⟨?_, ?_, ?_, ?_, ?_, ?_, ?_⟩, rfl⟩
  · show Seg _ 0 (((main, 0, 0) :: l) ++ [(a, n, s)]) 0
    rw [seg_append, hA, seg_append]
    refine ⟨⟨?_, ?_, trivial⟩, ?_, trivial⟩
    · refine seg_frame s1 (fun v hv => ?_)
      simp only
      rw [Function.update_of_ne (hAe v hv), Function.update_of_ne (hmem v (by simp [hv]))]
    · simp
    · simp [Function.update_of_ne (Ne.symm hae), lastA_append, lastA]
  · have := hi.nd
    simp only [List.map_append, List.map_cons, List.map_nil]
    rw [← List.cons_append, List.nodup_append]
    refine ⟨this, by simp, ?_⟩
    intro x hx y hy
    simp at hy; subst hy
    rcases List.mem_cons.1 hx with rfl | hx
    · exact Ne.symm hm
    · obtain ⟨v, hv, rfl⟩ := List.mem_map.1 hx; exact hl v hv
  · intro v hv
    rw [← List.cons_append] at hv
    rcases List.mem_append.1 hv with hv | hv
    · exact hi.nz v hv
    · rw [List.mem_singleton.1 hv]; exact h0
  · intro x hx
    have hx1 : x ∉ main :: l.map Prod.fst := fun h => hx (by rw [List.map_append, ← List.cons_append]; exact List.mem_append_left _ h)
    have hx2 : x ≠ a := fun h => hx (by simp [h])
    have hx3 : x ≠ e.1 := by
      intro h
      apply hx1
      have : e ∈ (main, 0, 0) :: l := by rw [hA]; simp
      have := List.mem_map_of_mem (f := Prod.fst) this
      rw [h]; simpa using this
    simp only [Function.update_of_ne hx3, Function.update_of_ne hx2]
    exact hi.out x hx1
  · rw [← List.cons_append, lastA_append]; rfl
  · simp only
    rw [totMem_append, hi.req]; simp [totMem]
  · simp only; omega

theorem free_inv {main : Nat} {l : List (Nat × Nat × Nat)} {st : State} (hi : Inv main l st) {v : Nat × Nat × Nat} (hv : v ∈ l) :
    ∃ st', free st (v.1 + headerSize) = some st' ∧ Inv main (l.filter (fun w => w.1 + headerSize != v.1 + headerSize)) st' ∧ st'.maxReq = st.maxReq ∧
      st'.req ≤ st.req := by
  obtain ⟨L, B, hL⟩ := List.append_of_mem hv
  obtain ⟨A, e, hA⟩ : ∃ A e, (main, 0, 0) :: L = A ++ [e] :=
    ⟨_, _, (List.dropLast_append_getLast (show (main, 0, 0) :: L ≠ [] by simp)).symm⟩
  have hwhole : (main, 0, 0) :: l = A ++ (e :: v :: B) := by rw [hL, ← List.cons_append, hA]; simp
  have hnd : ((A ++ (e :: v :: B)).map Prod.fst).Nodup := by rw [← hwhole]; exact hi.nd
  rw [List.map_append, List.nodup_append] at hnd
  obtain ⟨n1, n2, n3⟩ := hnd
  simp only [List.map_cons, List.nodup_cons, List.mem_cons, not_or] at n2
  obtain ⟨⟨n4, n5⟩, n6, n7⟩ := n2
  have hfilt : l.filter (fun w => w.1 + headerSize != v.1 + headerSize) = L ++ B := by
    rw [hL, List.filter_append, List.filter_cons_of_neg (by simp), List.filter_eq_self.2, List.filter_eq_self.2]
    · intro w hw
      have : w.1 ≠ v.1 := fun h => n6 (h ▸ List.mem_map_of_mem hw)
      simpa using this
    · intro w hw
      have hw' : w ∈ A ++ [e] := by rw [← hA]; simp [hw]
      have : w.1 ≠ v.1 := by
        rcases List.mem_append.1 hw' with hw' | hw'
        · exact n3 w.1 (List.mem_map_of_mem hw') v.1 (by simp)
        · rw [List.mem_singleton.1 hw']; exact n4
      simpa using this
  have hwhole' : (main, 0, 0) :: (L ++ B) = A ++ (e :: B) := by rw [← List.cons_append, hA]; simp
  have hseg := hi.seg
  rw [hwhole, seg_append] at hseg
  obtain ⟨s1, s2, s3, s4⟩ := hseg
  simp only [List.head?_cons, Option.map_some, Option.getD_some] at s2 s1
  have hAe : ∀ w ∈ A, w.1 ≠ e.1 := fun w hw => n3 w.1 (List.mem_map_of_mem hw) e.1 (by simp)
  have hAv : ∀ w ∈ A, w.1 ≠ v.1 := fun w hw => n3 w.1 (List.mem_map_of_mem hw) v.1 (by simp)
  have hAB : ∀ w ∈ A, ∀ b ∈ B, w.1 ≠ b.1 := fun w hw b hb => n3 w.1 (List.mem_map_of_mem hw) b.1 (by simp; exact Or.inr (Or.inr ⟨_, _, hb⟩))
  have hBe : ∀ b ∈ B, b.1 ≠ e.1 := fun b hb h => n5 (h ▸ List.mem_map_of_mem hb)
  have hBv : ∀ b ∈ B, b.1 ≠ v.1 := fun b hb h => n6 (h ▸ List.mem_map_of_mem hb)
  rw [hfilt]
  have hsub : v.1 + headerSize - headerSize = v.1 := Nat.add_sub_cancel _ _
  have hreq : st.req - v.2.2 * v.2.1 = totMem (L ++ B) := by
    rw [hi.req, hL, totMem_append, totMem_append]
    have : totMem (v :: B) = ((v.2.1 * v.2.2 : Nat) : Int) + totMem B := by simp [totMem]
    rw [this]; push_cast; rw [Int.mul_comm (v.2.2 : Int)]; omega
  have hle : (0 : Int) ≤ (v.2.2 : Int) * v.2.1 := Int.mul_nonneg (Int.natCast_nonneg _) (Int.natCast_nonneg _)
  -- common parts of the invariant
  have ndL : (main :: (L ++ B).map Prod.fst).Nodup := by
    have : ((A ++ (e :: B)).map Prod.fst).Nodup := by
      rw [List.map_append, List.nodup_append]
      refine ⟨n1, by simp only [List.map_cons, List.nodup_cons]; exact ⟨n5, n7⟩, fun x hx y hy => n3 x hx y ?_⟩
      simp only [List.map_cons, List.mem_cons] at hy ⊢
      rcases hy with h | h
      · exact Or.inl h
      · exact Or.inr (Or.inr h)
    rw [← hwhole'] at this; exact this
  have nzL : ∀ w ∈ (main, 0, 0) :: (L ++ B), w.1 ≠ 0 := by
    intro w hw
    refine hi.nz w ?_
    rw [hwhole]; rw [hwhole'] at hw
    simp at hw ⊢
    rcases hw with h | h | h
    · exact Or.inl h
    · exact Or.inr (Or.inl h)
    · exact Or.inr (Or.inr (Or.inr h))
  have outL : ∀ a, a ∉ main :: (L ++ B).map Prod.fst → a ≠ v.1 → st.heap a = none := by
    intro a ha hav
    refine hi.out a (fun h => ?_)
    have h' : a ∈ ((main, 0, 0) :: l).map Prod.fst := h
    rw [hwhole] at h'
    apply ha
    have g : a ∈ ((main, 0, 0) :: (L ++ B)).map Prod.fst := by
      rw [hwhole']
      simp only [List.map_append, List.map_cons, List.mem_append, List.mem_cons] at h' ⊢
      rcases h' with h | h | h | h
      · exact Or.inl h
      · exact Or.inr (Or.inl h)
      · exact absurd h hav
      · exact Or.inr (Or.inr h)
    exact g
  have he_mem : e.1 ∈ main :: (L ++ B).map Prod.fst := by
    have : e.1 ∈ ((main, 0, 0) :: (L ++ B)).map Prod.fst := by rw [hwhole']; simp
    exact this
  unfold free modify
  simp only [hsub, s3, Option.bind_some, s2, Option.map_some]
  cases B with
  | nil =>
    simp only [List.head?_nil, Option.map_none, Option.getD_none, ne_eq, not_true_eq_false, if_false, Option.map_some]
    refine ⟨_, rfl, ⟨?_, ndL, nzL, ?_, ?_, hreq, ?_⟩, rfl, ?_⟩
    · rw [hwhole', seg_append]
      refine ⟨seg_frame s1 (fun w hw => ?_), ?_, trivial⟩
      · simp only; rw [Function.update_of_ne (hAv w hw), Function.update_of_ne (hAe w hw)]
      · simp only; rw [Function.update_of_ne n4, Function.update_self]; simp
    · intro a ha
      by_cases hav : a = v.1
      · subst hav; simp
      · simp only; rw [Function.update_of_ne hav, Function.update_of_ne (fun h : a = e.1 => ha (by rw [h]; exact he_mem))]
        exact outL a ha hav
    · rw [hwhole', lastA_append]; rfl
    · simp only; have := hi.max; omega
    · simp only; omega
  | cons b B =>
    have hb0 : b.1 ≠ 0 := hi.nz b (by rw [hwhole]; simp)
    obtain ⟨s5, s6⟩ := s4
    have hbe := hBe b (by simp)
    have hbv := hBv b (by simp)
    have hbB : ∀ w ∈ B, w.1 ≠ b.1 := by
      intro w hw h
      simp only [List.map_cons, List.nodup_cons] at n7
      exact n7.1 (h ▸ List.mem_map_of_mem hw)
    have hb_mem : b.1 ∈ main :: (L ++ b :: B).map Prod.fst := by
      have : b.1 ∈ ((main, 0, 0) :: (L ++ b :: B)).map Prod.fst := by rw [hwhole']; simp
      exact this
    simp only [List.head?_cons, Option.map_some, Option.getD_some, ne_eq, hb0, not_false_eq_true, if_true, Function.update_of_ne hbe, s5]
    refine ⟨_, rfl, ⟨?_, ndL, nzL, ?_, ?_, hreq, ?_⟩, rfl, ?_⟩
    · rw [hwhole', seg_append]
      refine ⟨seg_frame s1 (fun w hw => ?_), ?_, ?_, seg_frame s6 (fun w hw => ?_)⟩
      · simp only; rw [Function.update_of_ne (hAv w hw), Function.update_of_ne (hAB w hw b (by simp)), Function.update_of_ne (hAe w hw)]
      · simp only; rw [Function.update_of_ne n4, Function.update_of_ne (Ne.symm hbe), Function.update_self]; simp
      · simp only; rw [Function.update_of_ne hbv, Function.update_self]
      · simp only; rw [Function.update_of_ne (hBv w (by simp [hw])), Function.update_of_ne (hbB w hw), Function.update_of_ne (hBe w (by simp [hw]))]
    · intro a ha
      by_cases hav : a = v.1
      · subst hav; simp
      · simp only; rw [Function.update_of_ne hav, Function.update_of_ne (fun h : a = b.1 => ha (by rw [h]; exact hb_mem)), Function.update_of_ne (fun h : a = e.1 => ha (by rw [h]; exact he_mem))]
        exact outL a ha hav
    · rw [hi.last, hwhole, hwhole', lastA_append, lastA_append]; rfl
    · simp only; have := hi.max; omega
    · simp only; omega

theorem live_snoc (ops : List Op) (o : Op) : live (ops ++ [o]) = (match o with
    | .malloc a n s => live ops ++ [(a, n, s)]
    | .free p => (live ops).filter (fun v => v.1 + headerSize != p)) := by
  unfold live; rw [List.foldl_append]; rfl

theorem run_inv {main : Nat} (hm : main ≠ 0) {ops : List Op} {sts : List State} {st : State} (h : Run main ops sts st) :
    Inv main (live ops) st ∧ (∃ s ∈ sts, s.req = st.maxReq) ∧ ∀ s ∈ sts, s.req ≤ st.maxReq := by
  induction h with
  | nil => exact ⟨inv_init hm, by simp [init]⟩
  | @snoc ops sts st o st' hr hl hs ih =>
    obtain ⟨hi, ⟨s0, m0, e0⟩, hb⟩ := ih
    cases o with
    | malloc a n s =>
      obtain ⟨h0, h1, h2, h3⟩ := hl
      obtain ⟨s', e1, e2, e3⟩ := malloc_inv hi (n := n) (s := s) h0 h1 h2 h3
      simp only [step, e1, Option.map_some, Option.some.injEq] at hs
      subst hs
      refine ⟨by rw [live_snoc]; exact e2, ?_, fun t ht => ?_⟩
      · rcases Int.le_total st.maxReq s'.req with hh | hh
        · exact ⟨s', by simp, by omega⟩
        · exact ⟨s0, by simp [m0], by omega⟩
      · rcases List.mem_append.1 ht with ht | ht
        · have := hb t ht; omega
        · rw [List.mem_singleton.1 ht]; omega
    | free p =>
      obtain ⟨v, hv, rfl⟩ := hl
      obtain ⟨s', e1, e2, e3, e4⟩ := free_inv hi hv
      simp only [step, e1, Option.some.injEq] at hs
      subst hs
      refine ⟨by rw [live_snoc]; exact e2, ⟨s0, by simp [m0], by omega⟩, fun t ht => ?_⟩
      rcases List.mem_append.1 ht with ht | ht
      · have := hb t ht; omega
      · rw [List.mem_singleton.1 ht]; have := hi.max; omega

theorem walk_seg {h : Nat → Option Node} {p : Nat} {L : List (Nat × Nat × Nat)} (hs : Seg h p L 0) (hz : ∀ v ∈ L, v.1 ≠ 0) (hne : L ≠ []) (fuel : Nat)
    (hf : L.length ≤ fuel) : (walk h fuel (L.head hne).1).map (fun q => (q.1, q.2.nel, q.2.sizePerEl)) = L := by
  induction L generalizing p fuel with
  | nil => exact absurd rfl hne
  | cons v L ih =>
    cases fuel with
    | zero => simp at hf
    | succ fuel =>
      obtain ⟨s1, s2⟩ := hs
      simp only [walk, List.head_cons, s1]
      cases L with
      | nil => simp
      | cons w L =>
        have hw : w.1 ≠ 0 := hz w (by simp)
        simp only [List.head?_cons, Option.map_some, Option.getD_some, hw, if_false, List.map_cons]
        have := ih s2 (fun v hv => hz v (by simp [hv])) (by simp) fuel (by simpa using hf)
        rw [List.head_cons] at this
        rw [this]

/-! ### C15 -/

/-- C15: walking the registry, after any legal history, one visits the base vector and then exactly the live vectors in order of
allocation, each with the number and size of elements requested; the loop ends there -/
theorem C15_registry (main : Nat) (hm : main ≠ 0) (ops : List Op) (sts : List State) (st : State) (h : Run main ops sts st) (fuel : Nat)
    (hf : (live ops).length < fuel) :
    (walk st.heap fuel main).map (fun q => (q.1, q.2.nel, q.2.sizePerEl)) = (main, 0, 0) :: live ops := by
  obtain ⟨hi, -⟩ := run_inv hm h
  exact walk_seg hi.seg hi.nz (by simp) fuel (by simp only [List.length_cons]; omega)

/-- C15: the memory reported as required, and the one computed walking the registry, are the total size of the live vectors; the maximum
is the one over the history -/
theorem C15_required_memory (main : Nat) (hm : main ≠ 0) (ops : List Op) (sts : List State) (st : State) (h : Run main ops sts st) :
    st.req = totMem (live ops) ∧ (∀ fuel, (live ops).length < fuel → memoryUsage st.heap main fuel = st.req) ∧
    (∃ s ∈ sts, s.req = st.maxReq) ∧ ∀ s ∈ sts, s.req ≤ st.maxReq := by
  obtain ⟨hi, h2⟩ := run_inv hm h
  refine ⟨hi.req, fun fuel hf => ?_, h2⟩
  have := C15_registry main hm ops sts st h fuel hf
  unfold memoryUsage
  rw [hi.req]
  have e := congrArg (fun l => (l.map (fun v : Nat × Nat × Nat => ((v.2.1 * v.2.2 : Nat) : Int))).sum) this
  simp only [List.map_map] at e
  have e2 : (List.map ((fun v : Nat × Nat × Nat => ((v.2.1 * v.2.2 : Nat) : Int)) ∘ fun q : Nat × Node => (q.1, q.2.nel, q.2.sizePerEl)) (walk st.heap fuel main)) =
    (walk st.heap fuel main).map (fun p => ((p.2.nel * p.2.sizePerEl : Nat) : Int)) := rfl
  rw [e2] at e
  rw [e]
  simp [totMem]

/-- C15: no legal request crashes or touches invalid memory; a new vector comes with a pointer aligned at 16 bytes -/
theorem C15_no_crash (main : Nat) (hm : main ≠ 0) (ops : List Op) (sts : List State) (st : State) (h : Run main ops sts st) (o : Op)
    (hl : Legal main ops o) : (step st o).isSome ∧
      ∀ a n s, o = .malloc a n s → (malloc st a n s).map Prod.snd = some (a + headerSize) ∧ (a + headerSize) % 16 = 0 := by
  obtain ⟨hi, -⟩ := run_inv hm h
  cases o with
  | malloc a n s =>
    obtain ⟨h0, h1, h2, h3⟩ := hl
    obtain ⟨s', e1, -⟩ := malloc_inv hi (n := n) (s := s) h0 h1 h2 h3
    refine ⟨by simp [step, e1], fun a' n' s' he => ?_⟩
    cases he
    refine ⟨by simp [e1], ?_⟩
    have : headerSize = 112 := by decide
    omega
  | free p =>
    obtain ⟨v, hv, rfl⟩ := hl
    obtain ⟨s', e1, -⟩ := free_inv hi hv
    exact ⟨by simp [step, e1], fun _ _ _ he => by cases he⟩

/-- three allocations with the middle one freed -/
example : ∃ sts st, Run 16 [.malloc 1024 10 8, .malloc 2048 5 4, .malloc 4096 3 8, .free (2048 + headerSize)] sts st ∧ st.req = 104 ∧ st.maxReq = 124 :=
  ⟨_, _, Run.snoc (Run.snoc (Run.snoc (Run.snoc Run.nil (by simp [Legal, live]) rfl) (by simp [Legal, live]) rfl) (by simp [Legal, live]) rfl)
    (by simp [Legal, live]) rfl, by decide, by decide⟩

end Nissa.Vect
