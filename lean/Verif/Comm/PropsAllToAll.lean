/- C24: delivery by the all-to-all communicator. -/
import Verif.Comm.AllToAllLemmas
set_option linter.all false

namespace Nissa.A2A

/-! ### Specification -/

/-- each rank sends as many elements as it receives -/
def Balanced (N : Nat) (sl : Nat → ScatterList) : Prop :=
  ∀ r, r < N → (sl r).length = ((List.range N).map (fun q => ((sl q).filter (fun e => e.2 % N = r)).length)).sum

/-- no two entries of the lists of all the ranks have the same destination -/
def Distinct (N : Nat) (sl : Nat → ScatterList) : Prop :=
  ∀ (q q' i i' : Nat) (e e' : Nat × Nat), q < N → q' < N → (sl q)[i]? = some e → (sl q')[i']? = some e' → e.2 = e'.2 → q = q' ∧ i = i'

/-- `r` sends something to `q` -/
def Sends (N : Nat) (sl : Nat → ScatterList) (r q : Nat) : Prop := ∃ e ∈ sl r, e.2 % N = q

/-! ### Communicators fitting together -/

/-- the communicators of the various ranks agree on what is exchanged -/
structure Coherent (N : Nat) (C : Nat → Comm) : Prop where
  nodupFr : ∀ r, r < N → (C r).listFr.Nodup
  nodupTo : ∀ r, r < N → (C r).listTo.Nodup
  ltFr : ∀ r, r < N → ∀ q ∈ (C r).listFr, q < N
  ltTo : ∀ r, r < N → ∀ q ∈ (C r).listTo, q < N
  lenFr : ∀ r, r < N → (C r).nperFr.length = (C r).listFr.length
  lenTo : ∀ r, r < N → (C r).nperTo.length = (C r).listTo.length
  offFr : ∀ r, r < N → ∀ k, k < (C r).listFr.length → (C r).inOff k = offsets (C r).nperFr k
  offTo : ∀ r, r < N → ∀ k, k < (C r).listTo.length → (C r).outOff k = offsets (C r).nperTo k
  nelFr : ∀ r, r < N → (C r).nelIn = (C r).nperFr.sum
  nelTo : ∀ r, r < N → (C r).nelOut = (C r).nperTo.sum
  mem : ∀ q r, q < N → r < N → (q ∈ (C r).listFr ↔ r ∈ (C q).listTo)
  nper : ∀ q r, q < N → r < N → q ∈ (C r).listFr → (C r).nperFr.getD ((C r).listFr.idxOf q) 0 = (C q).nperTo.getD ((C q).listTo.idxOf r) 0

theorem Coherent.inverse {N : Nat} {C : Nat → Comm} (h : Coherent N C) : Coherent N (fun r => (C r).inverse) where
  nodupFr := h.nodupTo
  nodupTo := h.nodupFr
  ltFr := h.ltTo
  ltTo := h.ltFr
  lenFr := h.lenTo
  lenTo := h.lenFr
  offFr := h.offTo
  offTo := h.offFr
  nelFr := h.nelTo
  nelTo := h.nelFr
  mem q r hq hr := (h.mem r q hr hq).symm
  nper q r hq hr hm := (h.nper r q hr hq ((h.mem r q hr hq).2 hm)).symm

/-- the local copy of `communicate` reads the number of elements at the right place -/
def LocalMatch (c : Comm) (r : Nat) : Prop :=
  r ∈ c.listFr → c.listFr.idxOf r < c.nperTo.length ∧ c.nperTo.getD (c.listFr.idxOf r) 0 = c.nperFr.getD (c.listFr.idxOf r) 0

theorem comm_spec {α : Type} (N : Nat) (C : Nat → Comm) (hC : Coherent N C) (r : Nat) (hr : r < N) (hbal : (C r).nelOut = (C r).nelIn)
    (hloc : LocalMatch (C r) r) (hinj : ∀ i i', i < (C r).nelIn → i' < (C r).nelIn → (C r).inDest i = (C r).inDest i' → i = i')
    (order : List Nat) (ho : order.Perm (List.range (C r).nelOut)) (junk : Nat → α) (inp : Nat → Nat → α) (out : Nat → α) :
    ∃ res, communicate C r order junk inp out = some res ∧
      (∀ q ∈ (C r).listFr, ∀ j, j < (C r).nperFr.getD ((C r).listFr.idxOf q) 0 →
        res ((C r).inDest ((C r).inOff ((C r).listFr.idxOf q) + j)) = inp q ((C q).outSrc ((C q).outOff ((C q).listTo.idxOf r) + j))) ∧
      (∀ x, (∀ i, i < (C r).nelIn → (C r).inDest i ≠ x) → res x = out x) := by
  have hnd : order.Nodup := ho.nodup_iff.2 List.nodup_range
  have hmo : ∀ i, i ∈ order ↔ i < (C r).nelIn := fun i => by rw [ho.mem_iff, List.mem_range, hbal]
  have hlist : ∀ k, k < (C r).listFr.length → (C r).listFr.getD k 0 ∈ (C r).listFr ∧ (C r).listFr.idxOf ((C r).listFr.getD k 0) = k :=
    fun k hk => idxOf_getD _ (hC.nodupFr r hr) k hk
  have hmatch : ∀ k, k < (C r).listFr.length → ((C ((C r).listFr.getD k 0)).listTo.idxOf r < (C ((C r).listFr.getD k 0)).listTo.length ∧
      (C ((C r).listFr.getD k 0)).nperTo.getD ((C ((C r).listFr.getD k 0)).listTo.idxOf r) 0 = (C r).nperFr.getD k 0) := by
    intro k hk
    obtain ⟨hm, hi⟩ := hlist k hk
    have hq := hC.ltFr r hr _ hm
    refine ⟨List.idxOf_lt_length_of_mem ((hC.mem _ r hq hr).1 hm), ?_⟩
    rw [← hC.nper _ r hq hr hm, hi]
  let outBuf : Nat → Nat → α := fun q i => if i < (C q).nelOut then inp q ((C q).outSrc i) else junk i
  obtain ⟨b1, e1, h1, -⟩ := recvAll_spec r (C r).listFr (C r).nperFr (C r).inOff (fun q => (C q).listTo) (fun q => (C q).nperTo) (fun q => (C q).outOff) outBuf
    (hC.offFr r hr) ((List.range (C r).listFr.length).filter (fun k => (C r).listFr.getD k 0 ≠ r))
    (fun k hk => List.mem_range.1 (List.mem_filter.1 hk).1) (fun k hk => hmatch k (List.mem_range.1 (List.mem_filter.1 hk).1)) junk
  -- the outgoing buffer is filled where it is read
  have hout : ∀ q, q < N → ∀ j, r ∈ (C q).listTo → j < (C q).nperTo.getD ((C q).listTo.idxOf r) 0 → outBuf q ((C q).outOff ((C q).listTo.idxOf r) + j) = inp q ((C q).outSrc ((C q).outOff ((C q).listTo.idxOf r) + j)) := by
    intro q hq j hm hj
    show (if _ then _ else _) = _
    rw [if_pos]
    rw [hC.nelTo q hq, hC.offTo q hq _ (List.idxOf_lt_length_of_mem hm)]
    exact offsets_lt _ _ _ hj
  -- after the local copy
  have hlocal : ∃ b2, (if (C r).listFr.idxOf r ≠ (C r).listFr.length ∧ (C r).listTo.idxOf r ≠ (C r).listTo.length then
      if (C r).nperTo.getD ((C r).listTo.idxOf r) 0 ≠ (C r).nperFr.getD ((C r).listFr.idxOf r) 0 then none
      else if (C r).listFr.idxOf r < (C r).nperTo.length then
        some (writeSeg b1 ((C r).inOff ((C r).listFr.idxOf r)) ((C r).nperTo.getD ((C r).listFr.idxOf r) 0) (fun j => outBuf r ((C r).outOff ((C r).listTo.idxOf r) + j)))
      else none
    else some b1) = some b2 ∧ ∀ q ∈ (C r).listFr, ∀ j, j < (C r).nperFr.getD ((C r).listFr.idxOf q) 0 →
        b2 ((C r).inOff ((C r).listFr.idxOf q) + j) = outBuf q ((C q).outOff ((C q).listTo.idxOf r) + j) := by
    by_cases hself : r ∈ (C r).listFr
    · have hself' : r ∈ (C r).listTo := (hC.mem r r hr hr).1 hself
      have l1 := List.idxOf_lt_length_of_mem hself
      have l2 := List.idxOf_lt_length_of_mem hself'
      obtain ⟨m1, m2⟩ := hloc hself
      rw [if_pos ⟨by omega, by omega⟩, if_neg (not_not.2 (hC.nper r r hr hr hself).symm), if_pos m1]
      refine ⟨_, rfl, fun q hq j hj => ?_⟩
      have lq := List.idxOf_lt_length_of_mem hq
      unfold writeSeg
      rw [m2]
      by_cases hc : (C r).inOff ((C r).listFr.idxOf r) ≤ (C r).inOff ((C r).listFr.idxOf q) + j ∧
          (C r).inOff ((C r).listFr.idxOf q) + j < (C r).inOff ((C r).listFr.idxOf r) + (C r).nperFr.getD ((C r).listFr.idxOf r) 0
      · rw [if_pos hc]
        have : offsets (C r).nperFr ((C r).listFr.idxOf q) + j = offsets (C r).nperFr ((C r).listFr.idxOf r) +
            ((C r).inOff ((C r).listFr.idxOf q) + j - (C r).inOff ((C r).listFr.idxOf r)) := by
          rw [← hC.offFr r hr _ lq, ← hC.offFr r hr _ l1]; omega
        obtain ⟨d1, d2⟩ := offsets_disj _ _ _ _ _ hj (by omega) this
        have hqr := idxOf_inj hq hself d1
        subst hqr
        congr 2; omega
      · rw [if_neg hc]
        have hqr : q ≠ r := by
          intro hqr; subst hqr; omega
        have hk := h1 ((C r).listFr.idxOf q) (List.mem_filter.2 ⟨List.mem_range.2 lq, by rw [getD_idxOf _ _ hq]; simpa using hqr⟩) j hj
        rw [getD_idxOf _ _ hq] at hk
        exact hk
    · rw [if_neg (by
        intro hc
        exact hc.1 (List.idxOf_eq_length hself))]
      refine ⟨b1, rfl, fun q hq j hj => ?_⟩
      have lq := List.idxOf_lt_length_of_mem hq
      have hqr : q ≠ r := fun hh => hself (hh ▸ hq)
      have hk := h1 ((C r).listFr.idxOf q) (List.mem_filter.2 ⟨List.mem_range.2 lq, by rw [getD_idxOf _ _ hq]; simpa using hqr⟩) j hj
      rw [getD_idxOf _ _ hq] at hk
      exact hk
  obtain ⟨b2, e2, h2⟩ := hlocal
  obtain ⟨s1, s2⟩ := scatter_spec (C r).inDest b2 order hnd (fun i hi i' hi' => hinj i i' ((hmo i).1 hi) ((hmo i').1 hi')) out
  refine ⟨order.foldl (fun out iel => Function.update out ((C r).inDest iel) (b2 iel)) out, ?_, ?_, ?_⟩
  · unfold communicate
    simp only
    rw [e1, Option.bind_some, e2, Option.bind_some]
    rw [if_neg (by omega)]
  · intro q hq j hj
    have lq := List.idxOf_lt_length_of_mem hq
    have hpos : (C r).inOff ((C r).listFr.idxOf q) + j < (C r).nelIn := by
      rw [hC.nelFr r hr, hC.offFr r hr _ lq]
      exact offsets_lt _ _ _ hj
    have hqN := hC.ltFr r hr q hq
    rw [s1 _ ((hmo _).2 hpos), h2 q hq j hj, hout q hqN j ((hC.mem q r hqN hr).1 hq) (by rw [← hC.nper q r hqN hr hq]; exact hj)]
  · intro x hx
    exact s2 x (fun i hi => hx i ((hmo i).1 hi))

/-! ### Setup -/

theorem sum_map_add' (l : List Nat) (f g : Nat → Nat) : (l.map (fun x => f x + g x)).sum = (l.map f).sum + (l.map g).sum := by
  induction l with
  | nil => rfl
  | cons a l ih => simp only [List.map_cons, List.sum_cons, ih]; omega

theorem le_sum_of_mem (l : List Nat) (a : Nat) (h : a ∈ l) : a ≤ l.sum := by
  induction l with
  | nil => cases h
  | cons b l ih =>
    rw [List.sum_cons]
    rcases List.mem_cons.1 h with rfl | h
    · omega
    · have := ih h; omega

theorem countTo_sum (N : Nat) (hN : 0 < N) (sl : ScatterList) : ((List.range N).map (countTo N sl)).sum = sl.length := by
  induction sl with
  | nil =>
    rw [show (List.range N).map (countTo N []) = (List.range N).map (fun _ => 0) from List.map_congr_left (fun q _ => rfl)]
    simp
  | cons e l ih =>
    have h : ∀ q, countTo N (e :: l) q = countTo N l q + if e.2 % N = q then 1 else 0 := by
      intro q
      rw [countTo_eq, countTo_eq]
      unfold bucket
      rw [List.filter_cons]
      by_cases h : e.2 % N = q <;> simp [h]
    rw [List.map_congr_left (fun q _ => h q), sum_map_add', ih, List.length_cons]
    congr 1
    have : ∀ m, e.2 % N < m → ((List.range m).map (fun q => if e.2 % N = q then 1 else 0)).sum = 1 := by
      intro m
      have z : ∀ m, m ≤ e.2 % N → ((List.range m).map (fun q => if e.2 % N = q then 1 else 0)).sum = 0 := by
        intro m hm
        rw [List.map_congr_left (g := fun _ => 0) (fun q hq => by rw [if_neg]; have := List.mem_range.1 hq; omega)]
        simp
      induction m with
      | zero => intro h; omega
      | succ m ih =>
        intro hm
        rw [List.range_succ, List.map_append, List.sum_append]
        by_cases hc : e.2 % N = m
        · rw [z m (by omega)]; simp [hc]
        · rw [ih (by omega)]; simp [hc]
    exact this N (Nat.mod_lt _ hN)

theorem mem_otherList {N : Nat} {sl : Nat → ScatterList} {r q : Nat} (hr : r < N) :
    q ∈ (part1Of N sl r).listFr ↔ q < N ∧ countTo N (sl q) r ≠ 0 := by
  show q ∈ rankList N _ ↔ _
  rw [mem_rankList]
  constructor
  · rintro ⟨h1, h2⟩; rw [otherTemp_eq N r _ hr q h1] at h2; exact ⟨h1, h2⟩
  · rintro ⟨h1, h2⟩; rw [otherTemp_eq N r _ hr q h1]; exact ⟨h1, h2⟩

theorem mem_toList {N : Nat} {sl : Nat → ScatterList} {r q : Nat} : q ∈ (part1Of N sl r).listTo ↔ q < N ∧ countTo N (sl r) q ≠ 0 := mem_rankList

theorem nelIn_eq (N : Nat) (sl : Nat → ScatterList) (r : Nat) (hr : r < N) :
    (part1Of N sl r).nelIn = ((List.range N).map (fun q => ((sl q).filter (fun e => e.2 % N = r)).length)).sum := by
  show ((List.range N).map _).sum = _
  congr 1
  refine List.map_congr_left (fun q hq => ?_)
  rw [otherTemp_eq N r _ hr q (List.mem_range.1 hq), countTo_eq]
  rfl

theorem nelOut_eq (N : Nat) (hN : 0 < N) (sl : Nat → ScatterList) (r : Nat) : (part1Of N sl r).nelOut = (sl r).length :=
  countTo_sum N hN (sl r)

theorem part1_coherent (N : Nat) (sl : Nat → ScatterList) (hb : Balanced N sl) : Coherent N (part1Of N sl) where
  nodupFr r hr := rankList_nodup _ _
  nodupTo r hr := rankList_nodup _ _
  ltFr r hr q hq := (mem_rankList.1 hq).1
  ltTo r hr q hq := (mem_rankList.1 hq).1
  lenFr r hr := List.length_map ..
  lenTo r hr := List.length_map ..
  offFr r hr k hk := by
    have hN : 0 < N := by omega
    show (if (part1Of N sl r).listTo.length ≠ 0 then offsets (part1Of N sl r).nperFr else fun _ => 0) k = _
    by_cases h : (part1Of N sl r).listTo.length ≠ 0
    · rw [if_pos h]
    · -- nothing is sent, so nothing is received
      exfalso
      have h0 : (part1Of N sl r).listTo = [] := List.length_eq_zero_iff.1 (not_not.1 h)
      have hout : (part1Of N sl r).nelOut = 0 := by
        show ((List.range N).map (countTo N (sl r))).sum = 0
        rw [← rankList_sum]
        show ((part1Of N sl r).listTo.map _).sum = 0
        rw [h0]; rfl
      have hin : (part1Of N sl r).nelIn = 0 := by
        rw [nelIn_eq N sl r hr, ← hb r hr, ← nelOut_eq N hN, hout]
      obtain ⟨hm, hi⟩ := idxOf_getD _ (rankList_nodup N (otherTemp N r (fun q => countTo N (sl q)))) k hk
      have hs : ((part1Of N sl r).listFr.map (otherTemp N r (fun q => countTo N (sl q)))).sum = 0 := by
        have := rankList_sum N (otherTemp N r (fun q => countTo N (sl q)))
        rw [show ((List.range N).map (otherTemp N r (fun q => countTo N (sl q)))).sum = (part1Of N sl r).nelIn from rfl, hin] at this
        exact this
      have hz := Nat.le_zero.1 (hs ▸ le_sum_of_mem _ _ (List.mem_map_of_mem hm))
      exact (mem_rankList.1 hm).2 hz
  offTo r hr k hk := rfl
  nelFr r hr := (rankList_sum _ _).symm
  nelTo r hr := (rankList_sum _ _).symm
  mem q r hq hr := by rw [mem_otherList hr, mem_toList]; exact ⟨fun h => ⟨hr, h.2⟩, fun h => ⟨hq, h.2⟩⟩
  nper q r hq hr hm := by
    have hm' : r ∈ (part1Of N sl q).listTo := mem_toList.2 ⟨hr, ((mem_otherList hr).1 hm).2⟩
    have a := getD_idxOf_map (part1Of N sl r).listFr (otherTemp N r (fun q => countTo N (sl q))) q hm
    have b := getD_idxOf_map (part1Of N sl q).listTo (countTo N (sl q)) r hm'
    rw [otherTemp_eq N r _ hr q hq] at a
    exact a.trans b.symm

/-- what is known of the communicator set up on a rank -/
structure SetupSpec (N : Nat) (sl : Nat → ScatterList) (r : Nat) (c : Comm) : Prop where
  same : ∃ d s, c = { part1Of N sl r with outSrc := s, inDest := d }
  src : ∀ q j e, (bucket N (sl r) q)[j]? = some e → c.outSrc (c.outOff (c.listTo.idxOf q) + j) = e.1
  dest : ∀ q, q < N → ∀ j e, (bucket N (sl q) r)[j]? = some e → q ∈ c.listFr ∧ j < c.nperFr.getD (c.listFr.idxOf q) 0 ∧ c.inDest (c.inOff (c.listFr.idxOf q) + j) = e.2 / N

theorem setup_recv (N : Nat) (hN : 0 < N) (sl : Nat → ScatterList) (hb : Balanced N sl) (junk : Nat → Nat) (r : Nat) (hr : r < N) :
    ∃ dest, recvAll r (part1Of N sl r).listFr (part1Of N sl r).nperFr (part1Of N sl r).inOff (fun q => (part1Of N sl q).listTo) (fun q => (part1Of N sl q).nperTo)
        (fun q => (part1Of N sl q).outOff) (fun q => (fill N (part1Of N sl q) junk (sl q)).expl) (List.range (part1Of N sl r).listFr.length) junk = some dest ∧
      ∀ q, q < N → ∀ j e, (bucket N (sl q) r)[j]? = some e → q ∈ (part1Of N sl r).listFr ∧ j < (part1Of N sl r).nperFr.getD ((part1Of N sl r).listFr.idxOf q) 0 ∧
        dest ((part1Of N sl r).inOff ((part1Of N sl r).listFr.idxOf q) + j) = e.2 / N := by
  have hC := part1_coherent N sl hb
  obtain ⟨dest, e1, h1, -⟩ := recvAll_spec r (part1Of N sl r).listFr (part1Of N sl r).nperFr (part1Of N sl r).inOff (fun q => (part1Of N sl q).listTo) (fun q => (part1Of N sl q).nperTo)
    (fun q => (part1Of N sl q).outOff) (fun q => (fill N (part1Of N sl q) junk (sl q)).expl) (hC.offFr r hr) (List.range (part1Of N sl r).listFr.length)
    (fun k hk => List.mem_range.1 hk) (fun k hk => by
      obtain ⟨hm, hi⟩ := idxOf_getD _ (hC.nodupFr r hr) k (List.mem_range.1 hk)
      have hq := hC.ltFr r hr _ hm
      refine ⟨List.idxOf_lt_length_of_mem ((hC.mem _ r hq hr).1 hm), ?_⟩
      rw [← hC.nper _ r hq hr hm, hi]) junk
  refine ⟨dest, e1, fun q hq j e he => ?_⟩
  have hjl : j < (bucket N (sl q) r).length := by
    by_contra hh
    rw [List.getElem?_eq_none (by omega)] at he; cases he
  have hm : q ∈ (part1Of N sl r).listFr := (mem_otherList hr).2 ⟨hq, by rw [countTo_eq]; omega⟩
  have hn : (part1Of N sl r).nperFr.getD ((part1Of N sl r).listFr.idxOf q) 0 = (bucket N (sl q) r).length := by
    have a := getD_idxOf_map (part1Of N sl r).listFr (otherTemp N r (fun q => countTo N (sl q))) q hm
    rw [otherTemp_eq N r _ hr q hq, countTo_eq] at a
    exact a
  refine ⟨hm, by rw [hn]; exact hjl, ?_⟩
  have hk := h1 _ (List.mem_range.2 (List.idxOf_lt_length_of_mem hm)) j (by rw [hn]; exact hjl)
  rw [getD_idxOf _ _ hm] at hk
  rw [hk]
  exact (fill_spec N (sl q) (part1Of N sl q) junk hN rfl rfl r j e he).2

/-- each incoming position comes from an entry of a list -/
theorem in_pos (N : Nat) (sl : Nat → ScatterList) (hb : Balanced N sl) (r : Nat) (hr : r < N) (i : Nat) (hi : i < (part1Of N sl r).nelIn) :
    ∃ q j e, q < N ∧ (bucket N (sl q) r)[j]? = some e ∧ i = (part1Of N sl r).inOff ((part1Of N sl r).listFr.idxOf q) + j := by
  have hC := part1_coherent N sl hb
  rw [hC.nelFr r hr] at hi
  obtain ⟨k, j, hk, hj, rfl⟩ := offsets_surj _ _ hi
  rw [hC.lenFr r hr] at hk
  obtain ⟨hm, hidx⟩ := idxOf_getD _ (hC.nodupFr r hr) k hk
  have hq := hC.ltFr r hr _ hm
  have hn : (part1Of N sl r).nperFr.getD k 0 = (bucket N (sl ((part1Of N sl r).listFr.getD k 0)) r).length := by
    have a := getD_idxOf_map (part1Of N sl r).listFr (otherTemp N r (fun q => countTo N (sl q))) _ hm
    rw [otherTemp_eq N r _ hr _ hq, countTo_eq, hidx] at a
    exact a
  rw [hn] at hj
  exact ⟨_, j, _, hq, List.getElem?_eq_getElem hj, by rw [hidx, hC.offFr r hr k hk]⟩

/-- the place of an entry in its bucket tells its place in the list -/
theorem bucket_index (N : Nat) (sl : ScatterList) (q j j' : Nat) (e e' : Nat × Nat)
    (hd : ∀ (i i' : Nat) (e e' : Nat × Nat), sl[i]? = some e → sl[i']? = some e' → e.2 = e'.2 → i = i') (h : (bucket N sl q)[j]? = some e) (h' : (bucket N sl q)[j']? = some e')
    (he : e.2 = e'.2) : j = j' := by
  have hnd : (sl.map Prod.snd).Nodup := by
    rw [List.nodup_iff_getElem?_ne_getElem?]
    intro i i' hii hl hh
    rw [List.length_map] at hl
    rw [List.getElem?_map, List.getElem?_map, List.getElem?_eq_getElem hl, List.getElem?_eq_getElem (by omega)] at hh
    have := hd i i' _ _ (List.getElem?_eq_getElem (by omega)) (List.getElem?_eq_getElem hl) (by simpa using hh)
    omega
  have hnb : ((bucket N sl q).map Prod.snd).Nodup := by
    unfold bucket
    exact hnd.sublist (List.Sublist.map _ List.filter_sublist)
  have hj : j < (bucket N sl q).length := by
    by_contra hh
    rw [List.getElem?_eq_none (by omega)] at h; cases h
  have hj' : j' < (bucket N sl q).length := by
    by_contra hh
    rw [List.getElem?_eq_none (by omega)] at h'; cases h'
  rw [List.getElem?_eq_getElem hj] at h
  rw [List.getElem?_eq_getElem hj'] at h'
  have := (List.Nodup.getElem_inj_iff hnb (hi := by rw [List.length_map]; exact hj) (hj := by rw [List.length_map]; exact hj')).1 (by
    rw [List.getElem_map, List.getElem_map, Option.some.inj h, Option.some.inj h']; exact he)
  exact this

/-- C24: when each rank gets as many elements as it sends and no two elements have the same destination, the set up succeeds on all the
ranks, whatever the uninitialised memory -/
theorem C24_setup (N : Nat) (hN : 0 < N) (sl : Nat → ScatterList) (hb : Balanced N sl) (hd : Distinct N sl) (junk : Nat → Nat) (r : Nat) (hr : r < N) :
    ∃ c, setup N sl junk r = some c ∧ SetupSpec N sl r c ∧ ∀ i i', i < c.nelIn → i' < c.nelIn → c.inDest i = c.inDest i' → i = i' := by
  obtain ⟨dest, e1, h1⟩ := setup_recv N hN sl hb junk r hr
  have hinj : ∀ i i', i < (part1Of N sl r).nelIn → i' < (part1Of N sl r).nelIn → dest i = dest i' → i = i' := by
    intro i i' hi hi' he
    obtain ⟨q, j, e, hq, hb1, rfl⟩ := in_pos N sl hb r hr i hi
    obtain ⟨q', j', e', hq', hb2, rfl⟩ := in_pos N sl hb r hr i' hi'
    rw [(h1 q hq j e hb1).2.2, (h1 q' hq' j' e' hb2).2.2] at he
    have m1 : e ∈ sl q ∧ e.2 % N = r := by simpa [bucket] using List.mem_of_getElem? hb1
    have m2 : e' ∈ sl q' ∧ e'.2 % N = r := by simpa [bucket] using List.mem_of_getElem? hb2
    have hee : e.2 = e'.2 := by
      rw [← Nat.div_add_mod e.2 N, ← Nat.div_add_mod e'.2 N, he, m1.2, m2.2]
    obtain ⟨i1, hi1⟩ := List.getElem?_of_mem m1.1
    obtain ⟨i2, hi2⟩ := List.getElem?_of_mem m2.1
    obtain ⟨rfl, -⟩ := hd q q' i1 i2 e e' hq hq' hi1 hi2 hee
    have := bucket_index N (sl q) r j j' e e' (fun i i' e e' a b c => (hd q q i i' e e' hq hq a b c).2) hb1 hb2 hee
    rw [this]
  obtain ⟨ch, hch⟩ := Option.isSome_iff_exists.1 ((dupCheck_spec _ dest).2 hinj)
  refine ⟨{ part1Of N sl r with outSrc := (fill N (part1Of N sl r) junk (sl r)).src, inDest := dest }, ?_, ⟨⟨dest, _, rfl⟩, ?_, h1⟩, hinj⟩
  · unfold setup
    simp only
    rw [e1, Option.bind_some, hch, Option.bind_some]
  · intro q j e he
    exact (fill_spec N (sl r) (part1Of N sl r) junk hN rfl rfl q j e he).1

/-- C24: duplicated destinations are refused: if the set up succeeds on all the ranks then no two elements have the same destination -/
theorem C24_duplicates_refused (N : Nat) (hN : 0 < N) (sl : Nat → ScatterList) (hb : Balanced N sl) (junk : Nat → Nat)
    (h : ∀ r, r < N → (setup N sl junk r).isSome = true) : Distinct N sl := by
  intro q q' i i' e e' hq hq' hi hi' hee
  have hr : e.2 % N < N := Nat.mod_lt _ hN
  obtain ⟨dest, e1, h1⟩ := setup_recv N hN sl hb junk (e.2 % N) hr
  have hs := h _ hr
  unfold setup at hs
  simp only at hs
  rw [e1, Option.bind_some] at hs
  have hdup : (dupCheck (part1Of N sl (e.2 % N)).nelIn dest).isSome = true := by
    cases hc : dupCheck (part1Of N sl (e.2 % N)).nelIn dest with
    | none => rw [hc] at hs; simp at hs
    | some x => rfl
  have hinj := (dupCheck_spec _ dest).1 hdup
  have hC := part1_coherent N sl hb
  -- entries as positions in the buckets: number of entries of the bucket before them
  have hpos : ∀ (l : ScatterList) (i : Nat) (e : Nat × Nat), l[i]? = some e → (bucket N l (e.2 % N))[(bucket N (l.take i) (e.2 % N)).length]? = some e := by
    intro l i e hi
    have hl : i < l.length := by
      by_contra hh
      rw [List.getElem?_eq_none (by omega)] at hi; cases hi
    have hsplit : l = l.take i ++ e :: l.drop (i + 1) := by
      rw [List.getElem?_eq_getElem hl] at hi
      rw [← Option.some.inj hi, ← List.drop_eq_getElem_cons, List.take_append_drop]
    conv_lhs => rw [hsplit]
    unfold bucket
    rw [List.filter_append, List.filter_cons, if_pos (by simp)]
    have : List.take i (List.take i l ++ e :: List.drop (i + 1) l) = List.take i l := by rw [← hsplit]
    rw [this, List.getElem?_append_right (Nat.le_refl _), Nat.sub_self]; rfl
  have hb1 := hpos _ _ _ hi
  have hb2 := hpos _ _ _ hi'
  rw [← hee] at hb2
  obtain ⟨m1, j1, d1⟩ := h1 q hq _ _ hb1
  obtain ⟨m2, j2, d2⟩ := h1 q' hq' _ _ hb2
  have k1 := List.idxOf_lt_length_of_mem m1
  have k2 := List.idxOf_lt_length_of_mem m2
  have heq := hinj ((part1Of N sl (e.2 % N)).inOff ((part1Of N sl (e.2 % N)).listFr.idxOf q) + (bucket N ((sl q).take i) (e.2 % N)).length)
    ((part1Of N sl (e.2 % N)).inOff ((part1Of N sl (e.2 % N)).listFr.idxOf q') + (bucket N ((sl q').take i') (e.2 % N)).length) (by rw [hC.nelFr _ hr, hC.offFr _ hr _ k1]; exact offsets_lt _ _ _ j1) (by rw [hC.nelFr _ hr, hC.offFr _ hr _ k2]; exact offsets_lt _ _ _ j2)
    (d1.trans ((congrArg (· / N) hee).trans d2.symm))
  rw [hC.offFr _ hr _ k1, hC.offFr _ hr _ k2] at heq
  obtain ⟨g1, g2⟩ := offsets_disj _ _ _ _ _ j1 j2 heq
  have hqq := idxOf_inj m1 m2 g1
  subst hqq
  refine ⟨rfl, ?_⟩
  -- the number of entries before tells the position
  have hmono : ∀ (l : ScatterList) (i i' : Nat) (e : Nat × Nat), l[i]? = some e → i < i' → (bucket N (l.take i) (e.2 % N)).length < (bucket N (l.take i') (e.2 % N)).length := by
    intro l i i' e hi hlt
    have hl : i < l.length := by
      by_contra hh
      rw [List.getElem?_eq_none (by omega)] at hi; cases hi
    have : l.take i' = l.take (i + 1) ++ (l.take i').drop (i + 1) := by
      conv_lhs => rw [← List.take_append_drop (i + 1) (l.take i')]
      rw [List.take_take, Nat.min_eq_left (by omega)]
    rw [this, List.take_add_one, hi]
    unfold bucket
    simp only [List.filter_append, List.length_append, Option.toList_some]
    rw [List.filter_cons, if_pos (by simp)]
    simp only [List.filter_nil, List.length_cons, List.length_nil]
    omega
  rcases Nat.lt_trichotomy i i' with hlt | hlt | hlt
  · have := hmono _ _ _ _ hi hlt; omega
  · exact hlt
  · have := hmono _ _ _ _ hi' hlt; rw [← hee] at this; omega

/-! ### Delivery -/

theorem coherent_of (N : Nat) (sl : Nat → ScatterList) (hb : Balanced N sl) (C : Nat → Comm) (h : ∀ r, r < N → SetupSpec N sl r (C r)) : Coherent N C := by
  have hC := part1_coherent N sl hb
  have hs : ∀ r, r < N → (C r).listFr = (part1Of N sl r).listFr ∧ (C r).listTo = (part1Of N sl r).listTo ∧ (C r).nperFr = (part1Of N sl r).nperFr ∧
      (C r).nperTo = (part1Of N sl r).nperTo ∧ (C r).inOff = (part1Of N sl r).inOff ∧ (C r).outOff = (part1Of N sl r).outOff ∧
      (C r).nelIn = (part1Of N sl r).nelIn ∧ (C r).nelOut = (part1Of N sl r).nelOut := by
    intro r hr
    obtain ⟨d, s, e⟩ := (h r hr).same
    rw [e]; exact ⟨rfl, rfl, rfl, rfl, rfl, rfl, rfl, rfl⟩
  constructor
  · intro r hr; rw [(hs r hr).1]; exact hC.nodupFr r hr
  · intro r hr; rw [(hs r hr).2.1]; exact hC.nodupTo r hr
  · intro r hr q hq; rw [(hs r hr).1] at hq; exact hC.ltFr r hr q hq
  · intro r hr q hq; rw [(hs r hr).2.1] at hq; exact hC.ltTo r hr q hq
  · intro r hr; rw [(hs r hr).1, (hs r hr).2.2.1]; exact hC.lenFr r hr
  · intro r hr; rw [(hs r hr).2.1, (hs r hr).2.2.2.1]; exact hC.lenTo r hr
  · intro r hr k hk; rw [(hs r hr).1] at hk; rw [(hs r hr).2.2.1, (hs r hr).2.2.2.2.1]; exact hC.offFr r hr k hk
  · intro r hr k hk; rw [(hs r hr).2.1] at hk; rw [(hs r hr).2.2.2.1, (hs r hr).2.2.2.2.2.1]; exact hC.offTo r hr k hk
  · intro r hr; rw [(hs r hr).2.2.1, (hs r hr).2.2.2.2.2.2.1]; exact hC.nelFr r hr
  · intro r hr; rw [(hs r hr).2.2.2.1, (hs r hr).2.2.2.2.2.2.2]; exact hC.nelTo r hr
  · intro q r hq hr; rw [(hs r hr).1, (hs q hq).2.1]; exact hC.mem q r hq hr
  · intro q r hq hr hm
    rw [(hs r hr).1] at hm ⊢
    rw [(hs r hr).2.2.1, (hs q hq).2.2.2.1, (hs q hq).2.1]; exact hC.nper q r hq hr hm

/-- positions of the ranks from which `r` receives, and of those to which it sends, in increasing order -/
def senders (N : Nat) (sl : Nat → ScatterList) (r : Nat) : List Nat := (List.range N).filter (fun q => ((sl q).any (fun e => e.2 % N = r)))
def receivers (N : Nat) (sl : Nat → ScatterList) (r : Nat) : List Nat := (List.range N).filter (fun q => ((sl r).any (fun e => e.2 % N = q)))
/-- number of elements sent from `r` to `q` -/
def amount (N : Nat) (sl : Nat → ScatterList) (r q : Nat) : Nat := ((sl r).filter (fun e => e.2 % N = q)).length

/-- the condition the local copy needs, in terms of the lists: `r` sends to itself as many elements as to the rank which, among those
to which it sends, has the position that `r` has among those from which it receives -/
def SelfCopyOk (N : Nat) (sl : Nat → ScatterList) (r : Nat) : Prop :=
  amount N sl r r ≠ 0 → ∃ q, (receivers N sl r)[(senders N sl r).idxOf r]? = some q ∧ amount N sl r q = amount N sl r r

theorem count_ne_zero (N : Nat) (l : ScatterList) (q : Nat) : (countTo N l q ≠ 0) ↔ l.any (fun e => e.2 % N = q) = true := by
  rw [countTo_eq]
  unfold bucket
  rw [List.any_eq_true, Ne, List.length_eq_zero_iff, List.filter_eq_nil_iff]
  simp

theorem listTo_eq (N : Nat) (sl : Nat → ScatterList) (r : Nat) : (part1Of N sl r).listTo = receivers N sl r := by
  show rankList N _ = _
  unfold rankList receivers
  refine List.filter_congr (fun q hq => ?_)
  have := count_ne_zero N (sl r) q
  by_cases h : countTo N (sl r) q ≠ 0
  · rw [this.1 h]; simp [h]
  · rw [Bool.eq_false_iff.2 (fun hh => h (this.2 hh))]; simp at h; simp [h]

theorem listFr_eq (N : Nat) (sl : Nat → ScatterList) (r : Nat) (hr : r < N) : (part1Of N sl r).listFr = senders N sl r := by
  show rankList N _ = _
  unfold rankList senders
  refine List.filter_congr (fun q hq => ?_)
  rw [otherTemp_eq N r _ hr q (List.mem_range.1 hq)]
  have := count_ne_zero N (sl q) r
  by_cases h : countTo N (sl q) r ≠ 0
  · rw [this.1 h]; simp [h]
  · rw [Bool.eq_false_iff.2 (fun hh => h (this.2 hh))]; simp at h; simp [h]

theorem localMatch_of (N : Nat) (sl : Nat → ScatterList) (r : Nat) (hr : r < N) (c : Comm) (hc : SetupSpec N sl r c) (h : SelfCopyOk N sl r) : LocalMatch c r := by
  obtain ⟨d, s, e⟩ := hc.same
  intro hm
  rw [e] at hm
  have hm' : r ∈ (part1Of N sl r).listFr := hm
  have hn := ((mem_otherList hr).1 hm').2
  rw [countTo_eq] at hn
  obtain ⟨q, hq, ha⟩ := h hn
  have hidx : (part1Of N sl r).listFr.idxOf r < (part1Of N sl r).listTo.length := by
    rw [listFr_eq N sl r hr, listTo_eq]
    by_contra hh
    rw [List.getElem?_eq_none (by omega)] at hq; cases hq
  rw [e]
  show (part1Of N sl r).listFr.idxOf r < (part1Of N sl r).nperTo.length ∧ (part1Of N sl r).nperTo.getD ((part1Of N sl r).listFr.idxOf r) 0 = (part1Of N sl r).nperFr.getD ((part1Of N sl r).listFr.idxOf r) 0
  have hto : (part1Of N sl r).nperTo = (part1Of N sl r).listTo.map (countTo N (sl r)) := rfl
  refine ⟨by rw [hto, List.length_map]; exact hidx, ?_⟩
  have a := getD_idxOf_map (part1Of N sl r).listFr (otherTemp N r (fun q => countTo N (sl q))) r hm'
  rw [otherTemp_eq N r _ hr r hr, countTo_eq] at a
  refine Eq.trans ?_ a.symm
  rw [hto, List.getD_eq_getElem _ _ (by rw [List.length_map]; exact hidx), List.getElem_map, countTo_eq]
  have hq2 : (part1Of N sl r).listTo[(part1Of N sl r).listFr.idxOf r]? = some q := by
    rw [listTo_eq, listFr_eq N sl r hr]; exact hq
  rw [List.getElem?_eq_getElem hidx] at hq2
  rw [Option.some.inj hq2]
  exact ha

/-- C24: for lists that are balanced, without duplicated destinations and for which the local copy reads the right count, after the
communication each element of each rank is found at the requested position of the requested rank; what is not a destination is left
untouched. For every number of ranks, size of the lists, content, order of execution of the last loop and uninitialised memory. -/
theorem C24_deliver_partial {α : Type} (N : Nat) (hN : 0 < N) (sl : Nat → ScatterList) (hb : Balanced N sl) (hd : Distinct N sl)
    (hs : ∀ r, r < N → SelfCopyOk N sl r) (junk : Nat → Nat) :
    (∀ r, r < N → ∃ c, setup N sl junk r = some c) ∧ ∀ C : Nat → Comm, (∀ r, r < N → setup N sl junk r = some (C r)) →
      ∀ (order : Nat → List Nat) (ho : ∀ r, r < N → (order r).Perm (List.range (sl r).length)) (junk' : Nat → α) (inp out : Nat → Nat → α),
      ∃ res : Nat → Nat → α, (∀ r, r < N → communicate C r (order r) junk' inp (out r) = some (res r)) ∧
        (∀ r, r < N → ∀ e ∈ sl r, res (e.2 % N) (e.2 / N) = inp r e.1) ∧
        (∀ r, r < N → ∀ x, (∀ q, q < N → ∀ e ∈ sl q, e.2 ≠ x * N + r) → res r x = out r x) := by
  have hset := C24_setup N hN sl hb hd junk
  refine ⟨fun r hr => ⟨_, (hset r hr).choose_spec.1⟩, fun C hCe => ?_⟩
  have hch : ∀ r (hr : r < N), (hset r hr).choose = C r := fun r hr => Option.some.inj ((hset r hr).choose_spec.1.symm.trans (hCe r hr))
  have hCs : ∀ r, r < N → SetupSpec N sl r (C r) := by
    intro r hr; rw [← hch r hr]; exact (hset r hr).choose_spec.2.1
  have hCi : ∀ r, r < N → ∀ i i', i < (C r).nelIn → i' < (C r).nelIn → (C r).inDest i = (C r).inDest i' → i = i' := by
    intro r hr; rw [← hch r hr]; exact (hset r hr).choose_spec.2.2
  have hC := coherent_of N sl hb C hCs
  have hnel : ∀ r, r < N → (C r).nelOut = (sl r).length ∧ (C r).nelIn = (sl r).length := by
    intro r hr
    obtain ⟨d, s, e⟩ := (hCs r hr).same
    have e1 : (C r).nelOut = (part1Of N sl r).nelOut := by rw [e]
    have e2 : (C r).nelIn = (part1Of N sl r).nelIn := by rw [e]
    rw [e1, e2, nelOut_eq N hN, nelIn_eq N sl r hr, ← hb r hr]
    exact ⟨rfl, rfl⟩
  intro order ho junk' inp out
  have hcomm := fun r (hr : r < N) => comm_spec N C hC r hr (by rw [(hnel r hr).1, (hnel r hr).2]) (localMatch_of N sl r hr (C r) (hCs r hr) (hs r hr)) (hCi r hr)
    (order r) (by rw [(hnel r hr).1]; exact ho r hr) junk' inp (out r)
  refine ⟨fun r => if h : r < N then (hcomm r h).choose else out r, fun r hr => ?_, fun r hr e he => ?_, fun r hr x hx => ?_⟩
  · simp only [dif_pos hr]; exact (hcomm r hr).choose_spec.1
  · have hq : e.2 % N < N := Nat.mod_lt _ hN
    simp only [dif_pos hq]
    obtain ⟨j, hj⟩ := List.getElem?_of_mem (show e ∈ bucket N (sl r) (e.2 % N) by simp [bucket, he])
    obtain ⟨m, hjn, hdest⟩ := (hCs _ hq).dest r hr j e hj
    have := (hcomm _ hq).choose_spec.2.1 r m j hjn
    rw [hdest] at this
    rw [this, (hCs r hr).src _ j e hj]
  · simp only [dif_pos hr]
    refine (hcomm r hr).choose_spec.2.2 x (fun i hi hxi => ?_)
    obtain ⟨d, s, e⟩ := (hCs r hr).same
    have e2 : (C r).nelIn = (part1Of N sl r).nelIn := by rw [e]
    rw [e2] at hi
    obtain ⟨q, j, e', hq, hj, rfl⟩ := in_pos N sl hb r hr i hi
    obtain ⟨-, -, hdest⟩ := (hCs r hr).dest q hq j e' hj
    have e3 : (C r).inOff = (part1Of N sl r).inOff ∧ (C r).listFr = (part1Of N sl r).listFr := by rw [e]; exact ⟨rfl, rfl⟩
    rw [e3.1, e3.2, hxi] at hdest
    have hm : e' ∈ sl q ∧ e'.2 % N = r := by simpa [bucket] using List.mem_of_getElem? hj
    refine hx q hq e' hm.1 ?_
    rw [hdest, ← hm.2, Nat.mul_comm]
    exact (Nat.div_add_mod e'.2 N).symm

/-- if the pattern of the communications is symmetric the local copy is right -/
theorem C24_symmetric_ok (N : Nat) (sl : Nat → ScatterList) (r : Nat) (hr : r < N)
    (h : ∀ q, q < N → (Sends N sl r q ↔ Sends N sl q r)) : SelfCopyOk N sl r := by
  intro hn
  have heq : receivers N sl r = senders N sl r := by
    unfold receivers senders
    refine List.filter_congr (fun q hq => ?_)
    have := h q (List.mem_range.1 hq)
    unfold Sends at this
    rw [Bool.eq_iff_iff, List.any_eq_true, List.any_eq_true]
    simpa using this
  have hm : r ∈ senders N sl r := by
    unfold senders
    rw [List.mem_filter, List.mem_range]
    refine ⟨hr, ?_⟩
    obtain ⟨e, he⟩ := List.exists_mem_of_ne_nil ((sl r).filter (fun e => e.2 % N = r)) (fun hh => hn (by unfold amount; rw [hh]; rfl))
    rw [List.mem_filter] at he
    exact List.any_eq_true.2 ⟨e, he⟩
  refine ⟨r, ?_, rfl⟩
  rw [heq, List.getElem?_eq_getElem (List.idxOf_lt_length_of_mem hm), List.getElem_idxOf]

end Nissa.A2A
