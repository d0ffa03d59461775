/- C24: inverse communicator, gathering lists, and what fails without the hypotheses. -/
import Verif.Comm.PropsAllToAll
set_option linter.all false

namespace Nissa.A2A

/-- mirror of `SelfCopyOk`, for the inverse communicator -/
def SelfCopyOkInv (N : Nat) (sl : Nat → ScatterList) (r : Nat) : Prop :=
  amount N sl r r ≠ 0 → ∃ q, (senders N sl r)[(receivers N sl r).idxOf r]? = some q ∧ amount N sl q r = amount N sl r r

theorem localMatch_inverse (N : Nat) (sl : Nat → ScatterList) (r : Nat) (hr : r < N) (c : Comm) (hc : SetupSpec N sl r c) (h : SelfCopyOkInv N sl r) :
    LocalMatch c.inverse r := by
  obtain ⟨d, s, e⟩ := hc.same
  intro hm
  rw [e] at hm
  have hm' : r ∈ (part1Of N sl r).listTo := hm
  have hn := (mem_toList.1 hm').2
  rw [countTo_eq] at hn
  obtain ⟨q, hq, ha⟩ := h hn
  have hidx : (part1Of N sl r).listTo.idxOf r < (part1Of N sl r).listFr.length := by
    rw [listFr_eq N sl r hr, listTo_eq]
    by_contra hh
    rw [List.getElem?_eq_none (by omega)] at hq; cases hq
  rw [e]
  show (part1Of N sl r).listTo.idxOf r < (part1Of N sl r).nperFr.length ∧ (part1Of N sl r).nperFr.getD ((part1Of N sl r).listTo.idxOf r) 0 = (part1Of N sl r).nperTo.getD ((part1Of N sl r).listTo.idxOf r) 0
  have hfr : (part1Of N sl r).nperFr = (part1Of N sl r).listFr.map (otherTemp N r (fun q => countTo N (sl q))) := rfl
  refine ⟨by rw [hfr, List.length_map]; exact hidx, ?_⟩
  have a := getD_idxOf_map (part1Of N sl r).listTo (countTo N (sl r)) r hm'
  rw [countTo_eq] at a
  refine Eq.trans ?_ a.symm
  have hq2 : (part1Of N sl r).listFr[(part1Of N sl r).listTo.idxOf r]? = some q := by
    rw [listTo_eq, listFr_eq N sl r hr]; exact hq
  rw [List.getElem?_eq_getElem hidx] at hq2
  have hqm : q < N := (mem_rankList.1 (Option.some.inj hq2 ▸ List.getElem_mem hidx)).1
  rw [hfr, List.getD_eq_getElem _ _ (by rw [List.length_map]; exact hidx), List.getElem_map, Option.some.inj hq2, otherTemp_eq N r _ hr q hqm, countTo_eq]
  exact ha

/-- each outgoing position comes from an entry of the list -/
theorem out_pos (N : Nat) (sl : Nat → ScatterList) (hb : Balanced N sl) (r : Nat) (hr : r < N) (i : Nat) (hi : i < (part1Of N sl r).nelOut) :
    ∃ q j e, q < N ∧ (bucket N (sl r) q)[j]? = some e ∧ i = (part1Of N sl r).outOff ((part1Of N sl r).listTo.idxOf q) + j := by
  have hC := part1_coherent N sl hb
  rw [hC.nelTo r hr] at hi
  obtain ⟨k, j, hk, hj, rfl⟩ := offsets_surj _ _ hi
  rw [hC.lenTo r hr] at hk
  obtain ⟨hm, hidx⟩ := idxOf_getD _ (hC.nodupTo r hr) k hk
  have hq := hC.ltTo r hr _ hm
  have hn : (part1Of N sl r).nperTo.getD k 0 = (bucket N (sl r) ((part1Of N sl r).listTo.getD k 0)).length := by
    have a := getD_idxOf_map (part1Of N sl r).listTo (countTo N (sl r)) _ hm
    rw [countTo_eq, hidx] at a
    exact a
  rw [hn] at hj
  exact ⟨_, j, _, hq, List.getElem?_eq_getElem hj, by rw [hidx]; rfl⟩

/-- the place of an entry in its bucket tells its source -/
theorem bucket_source (N : Nat) (l : ScatterList) (hn : (l.map Prod.fst).Nodup) (q q' j j' : Nat) (e e' : Nat × Nat)
    (h : (bucket N l q)[j]? = some e) (h' : (bucket N l q')[j']? = some e') (he : e.1 = e'.1) : q = q' ∧ j = j' := by
  have m1 : e ∈ l ∧ e.2 % N = q := by simpa [bucket] using List.mem_of_getElem? h
  have m2 : e' ∈ l ∧ e'.2 % N = q' := by simpa [bucket] using List.mem_of_getElem? h'
  have hee : e = e' := List.inj_on_of_nodup_map hn m1.1 m2.1 he
  subst hee
  have hq : q = q' := m1.2.symm.trans m2.2
  subst hq
  refine ⟨rfl, ?_⟩
  have hnb : (bucket N l q).Nodup := (List.Nodup.of_map _ hn).sublist List.filter_sublist
  have hj : j < (bucket N l q).length := by
    by_contra hh
    rw [List.getElem?_eq_none (by omega)] at h; cases h
  have hj' : j' < (bucket N l q).length := by
    by_contra hh
    rw [List.getElem?_eq_none (by omega)] at h'; cases h'
  rw [List.getElem?_eq_getElem hj] at h
  rw [List.getElem?_eq_getElem hj'] at h'
  exact (hnb.getElem_inj_iff (hi := hj) (hj := hj')).1 ((Option.some.inj h).trans (Option.some.inj h').symm)

/-- delivery with the two sides exchanged -/
theorem inverse_deliver {α : Type} (N : Nat) (hN : 0 < N) (sl : Nat → ScatterList) (hb : Balanced N sl) (hd : ∀ r, r < N → ((sl r).map Prod.fst).Nodup)
    (hs : ∀ r, r < N → SelfCopyOkInv N sl r) (C : Nat → Comm) (hC : ∀ r, r < N → SetupSpec N sl r (C r))
    (order : Nat → List Nat) (ho : ∀ r, r < N → (order r).Perm (List.range (sl r).length)) (junk : Nat → α) (inp out : Nat → Nat → α) :
    ∃ res : Nat → Nat → α, (∀ r, r < N → communicate (fun q => (C q).inverse) r (order r) junk inp (out r) = some (res r)) ∧
        (∀ r, r < N → ∀ e ∈ sl r, res r e.1 = inp (e.2 % N) (e.2 / N)) ∧
        (∀ r, r < N → ∀ x, (∀ e ∈ sl r, e.1 ≠ x) → res r x = out r x) := by
  have hco := (coherent_of N sl hb C hC).inverse
  have hnel : ∀ r, r < N → (C r).nelOut = (sl r).length ∧ (C r).nelIn = (sl r).length := by
    intro r hr
    obtain ⟨d, s, e⟩ := (hC r hr).same
    have e1 : (C r).nelOut = (part1Of N sl r).nelOut := by rw [e]
    have e2 : (C r).nelIn = (part1Of N sl r).nelIn := by rw [e]
    rw [e1, e2, nelOut_eq N hN, nelIn_eq N sl r hr, ← hb r hr]
    exact ⟨rfl, rfl⟩
  have hfld : ∀ r, r < N → (C r).nelOut = (part1Of N sl r).nelOut ∧ (C r).outOff = (part1Of N sl r).outOff ∧ (C r).listTo = (part1Of N sl r).listTo := by
    intro r hr
    obtain ⟨d, s, e⟩ := (hC r hr).same
    rw [e]; exact ⟨rfl, rfl, rfl⟩
  have hpos : ∀ r, r < N → ∀ i, i < (C r).nelOut → ∃ q j e, q < N ∧ (bucket N (sl r) q)[j]? = some e ∧ i = (C r).outOff ((C r).listTo.idxOf q) + j := by
    intro r hr i hi
    obtain ⟨f1, f2, f3⟩ := hfld r hr
    rw [f2, f3]
    exact out_pos N sl hb r hr i (f1 ▸ hi)
  have hinj : ∀ r, r < N → ∀ i i', i < (C r).nelOut → i' < (C r).nelOut → (C r).outSrc i = (C r).outSrc i' → i = i' := by
    intro r hr i i' hi hi' he
    obtain ⟨q, j, e, hq, hb1, rfl⟩ := hpos r hr i hi
    obtain ⟨q', j', e', hq', hb2, rfl⟩ := hpos r hr i' hi'
    rw [(hC r hr).src q j e hb1, (hC r hr).src q' j' e' hb2] at he
    obtain ⟨rfl, rfl⟩ := bucket_source N (sl r) (hd r hr) q q' j j' e e' hb1 hb2 he
    rfl
  have hcomm := fun r (hr : r < N) => comm_spec N (fun q => (C q).inverse) hco r hr (by show (C r).nelIn = (C r).nelOut; rw [(hnel r hr).1, (hnel r hr).2])
    (localMatch_inverse N sl r hr (C r) (hC r hr) (hs r hr)) (hinj r hr)
    (order r) (by show (order r).Perm (List.range (C r).nelIn); rw [(hnel r hr).2]; exact ho r hr) junk inp (out r)
  refine ⟨fun r => if h : r < N then (hcomm r h).choose else out r, fun r hr => ?_, fun r hr e he => ?_, fun r hr x hx => ?_⟩
  · simp only [dif_pos hr]; exact (hcomm r hr).choose_spec.1
  · have hq : e.2 % N < N := Nat.mod_lt _ hN
    simp only [dif_pos hr]
    obtain ⟨j, hj⟩ := List.getElem?_of_mem (show e ∈ bucket N (sl r) (e.2 % N) by simp [bucket, he])
    obtain ⟨m, hjn, hdest⟩ := (hC _ hq).dest r hr j e hj
    have m' : e.2 % N ∈ (C r).listTo := (hco.mem (e.2 % N) r hq hr).2 m
    have hjn' : j < (C r).nperTo.getD ((C r).listTo.idxOf (e.2 % N)) 0 := by
      have := hco.nper (e.2 % N) r hq hr m'
      rw [show (C r).nperTo.getD ((C r).listTo.idxOf (e.2 % N)) 0 = _ from this]
      exact hjn
    have := (hcomm _ hr).choose_spec.2.1 (e.2 % N) m' j hjn'
    have hsrc := (hC r hr).src _ j e hj
    refine (congrArg _ hsrc.symm).trans (this.trans ?_)
    show inp (e.2 % N) ((C (e.2 % N)).inDest ((C (e.2 % N)).inOff ((C (e.2 % N)).listFr.idxOf r) + j)) = _
    rw [hdest]
  · simp only [dif_pos hr]
    refine (hcomm r hr).choose_spec.2.2 x (fun i hi hxi => ?_)
    obtain ⟨q, j, e', hq, hj, rfl⟩ := hpos r hr i hi
    have hsrc := (hC r hr).src q j e' hj
    have hm : e' ∈ sl r ∧ e'.2 % N = q := by simpa [bucket] using List.mem_of_getElem? hj
    exact hx e' hm.1 (hsrc.symm.trans hxi)

/-- C24: the inverse communicator takes back, at the place from which it was sent, what is at the place where it was delivered -/
theorem C24_inverse_partial {α : Type} (N : Nat) (hN : 0 < N) (sl : Nat → ScatterList) (hb : Balanced N sl) (hd : Distinct N sl)
    (hsrc : ∀ r, r < N → ((sl r).map Prod.fst).Nodup) (hs : ∀ r, r < N → SelfCopyOkInv N sl r) (junk : Nat → Nat) :
    (∀ r, r < N → ∃ c, setup N sl junk r = some c) ∧ ∀ C : Nat → Comm, (∀ r, r < N → setup N sl junk r = some (C r)) →
      ∀ (order : Nat → List Nat) (ho : ∀ r, r < N → (order r).Perm (List.range (sl r).length)) (junk' : Nat → α) (inp out : Nat → Nat → α),
      ∃ res : Nat → Nat → α, (∀ r, r < N → communicate (fun q => (C q).inverse) r (order r) junk' inp (out r) = some (res r)) ∧
        (∀ r, r < N → ∀ e ∈ sl r, res r e.1 = inp (e.2 % N) (e.2 / N)) ∧
        (∀ r, r < N → ∀ x, (∀ e ∈ sl r, e.1 ≠ x) → res r x = out r x) := by
  have hset := C24_setup N hN sl hb hd junk
  refine ⟨fun r hr => ⟨_, (hset r hr).choose_spec.1⟩, fun C hCe order ho junk' inp out => ?_⟩
  have hch : ∀ r (hr : r < N), (hset r hr).choose = C r := fun r hr => Option.some.inj ((hset r hr).choose_spec.1.symm.trans (hCe r hr))
  exact inverse_deliver N hN sl hb hsrc hs C (fun r hr => by rw [← hch r hr]; exact (hset r hr).choose_spec.2.1) order ho junk' inp out

/-! ### Gathering lists -/

theorem part1Ask_eq (N : Nat) (gl : Nat → ScatterList) (hb : Balanced N gl) (r : Nat) (hr : r < N) : part1AskOf N gl r = (part1Of N gl r).inverse := by
  have hN : 0 < N := by omega
  unfold part1AskOf part1Of part1 Comm.inverse
  simp only
  have h1 : (if (rankList N (otherTemp N r (fun r => countTo N (gl r)))).length ≠ 0 then offsets ((rankList N (countTo N (gl r))).map (countTo N (gl r))) else fun _ => 0)
      = offsets ((rankList N (countTo N (gl r))).map (countTo N (gl r))) := by
    by_cases h : (rankList N (otherTemp N r (fun r => countTo N (gl r)))).length ≠ 0
    · rw [if_pos h]
    · rw [if_neg h]
      have h0 : rankList N (otherTemp N r (fun r => countTo N (gl r))) = [] := List.length_eq_zero_iff.1 (not_not.1 h)
      have hin : (part1Of N gl r).nelIn = 0 := by
        rw [(part1_coherent N gl hb).nelFr r hr]
        show ((rankList N (otherTemp N r (fun r => countTo N (gl r)))).map _).sum = 0
        rw [h0]; rfl
      have hlen : gl r = [] := by
        rw [nelIn_eq N gl r hr, ← hb r hr] at hin
        exact List.length_eq_zero_iff.1 hin
      have hz : rankList N (countTo N (gl r)) = [] := by
        rw [hlen]; unfold rankList countTo
        rw [List.filter_eq_nil_iff]; intro a _; simp
      rw [hz]
      funext k
      rw [List.map_nil, offsets_eq]; simp
  have h2 : (if (rankList N (countTo N (gl r))).length ≠ 0 then offsets ((rankList N (otherTemp N r (fun r => countTo N (gl r)))).map (otherTemp N r (fun r => countTo N (gl r)))) else fun _ => 0)
      = offsets ((rankList N (otherTemp N r (fun r => countTo N (gl r)))).map (otherTemp N r (fun r => countTo N (gl r)))) := by
    by_cases h : (rankList N (countTo N (gl r))).length ≠ 0
    · rw [if_pos h]
    · rw [if_neg h]
      have h0 : rankList N (countTo N (gl r)) = [] := List.length_eq_zero_iff.1 (not_not.1 h)
      have hout : (part1Of N gl r).nelOut = 0 := by
        rw [(part1_coherent N gl hb).nelTo r hr]
        show ((rankList N (countTo N (gl r))).map _).sum = 0
        rw [h0]; rfl
      have hin : ((rankList N (otherTemp N r (fun r => countTo N (gl r)))).map (otherTemp N r (fun r => countTo N (gl r)))).sum = 0 := by
        have : (part1Of N gl r).nelIn = 0 := by
          rw [nelIn_eq N gl r hr, ← hb r hr, ← nelOut_eq N hN, hout]
        rw [(part1_coherent N gl hb).nelFr r hr] at this
        exact this
      have hz : rankList N (otherTemp N r (fun r => countTo N (gl r))) = [] := by
        rw [List.eq_nil_iff_forall_not_mem]
        intro q hq
        exact (mem_rankList.1 hq).2 (Nat.le_zero.1 (hin ▸ le_sum_of_mem _ _ (List.mem_map_of_mem hq)))
      rw [hz]
      funext k
      rw [List.map_nil, offsets_eq]; simp
  rw [h1, h2]

/-- C24: a communicator built knowing what to ask brings each requested element to the requested place -/
theorem C24_gather_partial {α : Type} (N : Nat) (hN : 0 < N) (gl : Nat → ScatterList) (hb : Balanced N gl)
    (hd : ∀ r, r < N → ((gl r).map Prod.fst).Nodup) (hs : ∀ r, r < N → SelfCopyOkInv N gl r) (junk : Nat → Nat) :
    (∀ r, r < N → ∃ c, setupAsk N gl junk r = some c) ∧ ∀ C : Nat → Comm, (∀ r, r < N → setupAsk N gl junk r = some (C r)) →
      ∀ (order : Nat → List Nat) (ho : ∀ r, r < N → (order r).Perm (List.range (gl r).length)) (junk' : Nat → α) (inp out : Nat → Nat → α),
      ∃ res : Nat → Nat → α, (∀ r, r < N → communicate C r (order r) junk' inp (out r) = some (res r)) ∧
        (∀ r, r < N → ∀ e ∈ gl r, res r e.1 = inp (e.2 % N) (e.2 / N)) ∧
        (∀ r, r < N → ∀ x, (∀ e ∈ gl r, e.1 ≠ x) → res r x = out r x) := by
  have hfill : ∀ q, q < N → fill N (part1AskOf N gl q).inverse junk (gl q) = fill N (part1Of N gl q) junk (gl q) := by
    intro q hq; rw [part1Ask_eq N gl hb q hq]; rfl
  have hset : ∀ r, r < N → ∃ c, SetupSpec N gl r c ∧ setupAsk N gl junk r = some c.inverse := by
    intro r hr
    obtain ⟨dest, e1, h1⟩ := setup_recv N hN gl hb junk r hr
    have hinj : ∀ i i', i < (part1Of N gl r).nelOut → i' < (part1Of N gl r).nelOut →
        (fill N (part1Of N gl r) junk (gl r)).src i = (fill N (part1Of N gl r) junk (gl r)).src i' → i = i' := by
      intro i i' hi hi' he
      obtain ⟨q, j, e, hq, hb1, rfl⟩ := out_pos N gl hb r hr i hi
      obtain ⟨q', j', e', hq', hb2, rfl⟩ := out_pos N gl hb r hr i' hi'
      rw [(fill_spec N (gl r) (part1Of N gl r) junk hN rfl rfl q j e hb1).1, (fill_spec N (gl r) (part1Of N gl r) junk hN rfl rfl q' j' e' hb2).1] at he
      obtain ⟨rfl, rfl⟩ := bucket_source N (gl r) (hd r hr) q q' j j' e e' hb1 hb2 he
      rfl
    obtain ⟨ch, hch⟩ := Option.isSome_iff_exists.1 ((dupCheck_spec _ (fill N (part1Of N gl r) junk (gl r)).src).2 hinj)
    refine ⟨{ part1Of N gl r with outSrc := (fill N (part1Of N gl r) junk (gl r)).src, inDest := dest }, ⟨⟨dest, _, rfl⟩, ?_, h1⟩, ?_⟩
    · intro q j e he
      exact (fill_spec N (gl r) (part1Of N gl r) junk hN rfl rfl q j e he).1
    · unfold setupAsk
      simp only
      have hrecv : recvAll r (part1AskOf N gl r).listTo (part1AskOf N gl r).nperTo (part1AskOf N gl r).outOff (fun q => (part1AskOf N gl q).listFr)
          (fun q => (part1AskOf N gl q).nperFr) (fun q => (part1AskOf N gl q).inOff) (fun q => (fill N (part1AskOf N gl q).inverse junk (gl q)).expl)
          (List.range (part1AskOf N gl r).listTo.length) junk = some dest := by
        rw [part1Ask_eq N gl hb r hr]
        refine Eq.trans ?_ e1
        unfold recvAll
        have hC := part1_coherent N gl hb
        have aux : ∀ (ks : List Nat), (∀ k ∈ ks, k < (part1Of N gl r).listFr.length) → ∀ (f g : (Nat → Nat) → Nat → Option (Nat → Nat)),
            (∀ k, k < (part1Of N gl r).listFr.length → ∀ b, f b k = g b k) → ∀ b, ks.foldlM f b = ks.foldlM g b := by
          intro ks
          induction ks with
          | nil => intro _ f g _ b; rfl
          | cons k ks ih =>
            intro hk f g hfg b
            rw [List.foldlM_cons, List.foldlM_cons, hfg k (hk k (by simp)) b]
            congr 1
            funext b'
            exact ih (fun x hx => hk x (by simp [hx])) f g hfg b'
        refine aux _ (fun k hk => List.mem_range.1 hk) _ _ (fun k hk b => ?_) junk
        have hq : (part1Of N gl r).listFr.getD k 0 < N := hC.ltFr r hr _ (idxOf_getD _ (hC.nodupFr r hr) k hk).1
        have hq' : (part1Of N gl r).inverse.listTo.getD k 0 < N := hq
        have hask : part1AskOf N gl ((part1Of N gl r).inverse.listTo.getD k 0) = (part1Of N gl ((part1Of N gl r).inverse.listTo.getD k 0)).inverse := part1Ask_eq N gl hb _ hq'
        dsimp only [] at hask ⊢
        simp only [hask]
        rfl
      rw [hrecv, Option.bind_some, hfill r hr, part1Ask_eq N gl hb r hr]
      show (dupCheck (part1Of N gl r).nelOut _).bind _ = _
      rw [hch, Option.bind_some]
      rfl
  refine ⟨fun r hr => ⟨_, (hset r hr).choose_spec.2⟩, fun C hCe order ho junk' inp out => ?_⟩
  have hch : ∀ r (hr : r < N), (hset r hr).choose = (C r).inverse := fun r hr => by
    have := Option.some.inj ((hset r hr).choose_spec.2.symm.trans (hCe r hr))
    rw [← this]; rfl
  have := inverse_deliver N hN gl hb hd hs (fun r => (C r).inverse)
    (fun r hr => by rw [← hch r hr]; exact (hset r hr).choose_spec.1) order ho junk' inp out
  exact this

end Nissa.A2A
