/-
C73: whole fields and gauge configurations are written to and read from ILDG files.
-/
import Verif.Io.FieldIoLemmas
import Verif.Comm.LayoutsCases
set_option linter.all false

namespace Nissa.FieldIo
open Nissa.Lx Nissa.A2A Nissa.Layouts Nissa.Ildg
open Nissa.Endian (Byte Mem Endianness bytesOf valueOf fixToNative fixFromNative)
open Nissa.Checksum

/-! ### Writing -/

theorem overwrite_get (b : List Byte) (pos : Nat) (data : List Byte) (k : Nat) :
    (overwrite b pos data)[k]? = if k < pos then (if k < b.length then b[k]? else some 0#8) else if k < pos + data.length then data[k - pos]? else b[k]? := by
  unfold overwrite
  have hl : ((b ++ List.replicate (pos - b.length) 0#8).take pos).length = pos := by
    rw [List.length_take, List.length_append, List.length_replicate]; omega
  rw [List.append_assoc]
  by_cases h1 : k < pos
  · rw [if_pos h1, List.getElem?_append_left (by omega), List.getElem?_take_of_lt h1]
    by_cases h2 : k < b.length
    · rw [if_pos h2, List.getElem?_append_left h2]
    · rw [if_neg h2, List.getElem?_append_right (by omega), List.getElem?_replicate, if_pos (by omega)]
  · rw [if_neg h1, List.getElem?_append_right (by omega), hl]
    by_cases h2 : k < pos + data.length
    · rw [if_pos h2, List.getElem?_append_left (by omega)]
    · rw [if_neg h2, List.getElem?_append_right (by omega), List.getElem?_drop]
      congr 1; omega

/-- pieces written by the ranks in any order, one after the other in the file -/
theorem writeBlocks_eq (N nb : Nat) (order : List Nat) (ho : order.Perm (List.range N)) (b : List Byte) (temp : Memory) :
    writeBlocks order nb (fun r => b.length + r * nb) temp b = b ++ (List.range N).flatMap (fun r => (List.range nb).map (temp r)) := by
  have gen : ∀ (l : List Nat) (done : List Nat) (c : List Byte), l.Nodup → (∀ r ∈ l, r < N ∧ r ∉ done) → (∀ r ∈ done, r < N) →
      (∀ k, k < b.length → c[k]? = b[k]?) → (∀ r ∈ done, ∀ j, j < nb → c[b.length + r * nb + j]? = some (temp r j)) →
      (∀ k, b.length + N * nb ≤ k → c[k]? = none) →
      let c' := writeBlocks l nb (fun r => b.length + r * nb) temp c
      (∀ k, k < b.length → c'[k]? = b[k]?) ∧ (∀ r, r ∈ done ∨ r ∈ l → ∀ j, j < nb → c'[b.length + r * nb + j]? = some (temp r j)) ∧
      (∀ k, b.length + N * nb ≤ k → c'[k]? = none) := by
    intro l
    induction l with
    | nil => intro done c _ _ _ h1 h2 h3; exact ⟨h1, fun r hr => h2 r (by simpa using hr), h3⟩
    | cons a l ih =>
      intro done c hnd hl hdn h1 h2 h3
      obtain ⟨ha, hna⟩ := hl a (by simp)
      have hle : a * nb + nb ≤ N * nb := by
        calc a * nb + nb = (a + 1) * nb := by ring
          _ ≤ _ := Nat.mul_le_mul_right _ ha
      have := ih (a :: done) (overwrite c (b.length + a * nb) ((List.range nb).map (temp a))) (List.nodup_cons.1 hnd).2
        (fun r hr => ⟨(hl r (by simp [hr])).1, by
          rw [List.mem_cons]
          rintro (h | h)
          · exact (List.nodup_cons.1 hnd).1 (h ▸ hr)
          · exact (hl r (by simp [hr])).2 h⟩)
        (fun r hr => by rcases List.mem_cons.1 hr with h | h <;> [(rw [h]; exact ha); exact hdn r h])
        (fun k hk => by
          have hc : k < c.length := by
            by_contra hh
            have := h1 k hk
            rw [List.getElem?_eq_none (by omega), List.getElem?_eq_getElem hk] at this
            cases this
          rw [overwrite_get, if_pos (by omega), if_pos hc, h1 k hk])
        (fun r hr j hj => by
          rw [overwrite_get, List.length_map, List.length_range]
          rcases List.mem_cons.1 hr with h | h
          · subst h
            rw [if_neg (by omega), if_pos (by omega), show b.length + r * nb + j - (b.length + r * nb) = j by omega]
            simp [hj]
          · have hne : r ≠ a := fun hh => hna (hh ▸ h)
            have hold := h2 r h j hj
            rcases Nat.lt_or_gt_of_ne hne with hlt | hgt
            · have : r * nb + nb ≤ a * nb := by
                calc r * nb + nb = (r + 1) * nb := by ring
                  _ ≤ _ := Nat.mul_le_mul_right _ hlt
              have hc : b.length + r * nb + j < c.length := by
                by_contra hh
                rw [List.getElem?_eq_none (by omega)] at hold
                cases hold
              rw [if_pos (by omega), if_pos hc, hold]
            · have : a * nb + nb ≤ r * nb := by
                calc a * nb + nb = (a + 1) * nb := by ring
                  _ ≤ _ := Nat.mul_le_mul_right _ hgt
              rw [if_neg (by omega), if_neg (by omega), hold])
        (fun k hk => by
          rw [overwrite_get, List.length_map, List.length_range, if_neg (by omega), if_neg (by omega), h3 k hk])
      refine ⟨this.1, fun r hr j hj => this.2.1 r ?_ j hj, this.2.2⟩
      rcases hr with h | h
      · exact Or.inl (by simp [h])
      · rcases List.mem_cons.1 h with h | h
        · exact Or.inl (by simp [h])
        · exact Or.inr h
  have hmem : ∀ r, r ∈ order ↔ r < N := fun r => by rw [ho.mem_iff, List.mem_range]
  obtain ⟨g1, g2, g3⟩ := gen order [] b (ho.nodup_iff.2 List.nodup_range) (fun r hr => ⟨(hmem r).1 hr, by simp⟩) (by simp) (fun k _ => rfl) (by simp)
    (fun k hk => List.getElem?_eq_none (by omega))
  rw [flat_map N nb temp]
  apply List.ext_getElem?
  intro k
  by_cases h1 : k < b.length
  · rw [g1 k h1, List.getElem?_append_left h1]
  · rw [List.getElem?_append_right (by omega)]
    by_cases h2 : k - b.length < N * nb
    · obtain ⟨s1, s2, s3, s4⟩ := split_lt (a := 0) h2
      have := g2 _ (Or.inr ((hmem _).2 s1)) _ s3
      rw [show b.length + (k - b.length) / nb * nb + (k - b.length) % nb = k by omega] at this
      rw [this, List.getElem?_map, List.getElem?_range h2]
      rfl
    · rw [g3 k (by omega), List.getElem?_eq_none (by simp; omega)]

/-- after the remapping and the conversion each rank has its piece of the file -/
theorem remapped_piece (e : Env) (g : Geo) (ok : g.Ok) (he : EnvOk e g) (X : Nat → Nat → Coords) (hX : CoordTable g X) (hs : CopyOk g (indexToIldg g X))
    (sizeofT nDegs : Nat) (D : Coords → Nat → Nat) (m : Memory) (hm : InMemory e.native sizeofT nDegs g X D m) (tempInit : Memory) :
    (∃ temp, Remaps e g (indexToIldg g X) (nDegs * sizeofT) m tempInit temp) ∧
    ∀ temp, Remaps e g (indexToIldg g X) (nDegs * sizeofT) m tempInit temp → ∀ r, r < g.nranks →
      (List.range (g.locVol * (nDegs * sizeofT))).map (fixAll (fixFromNative e.native .big sizeofT e.junkReal) sizeofT (g.locVol * nDegs) (temp r)) =
        (List.range g.locVol).flatMap (fun i => siteBytes sizeofT nDegs (D (fileCoords g.L (r * g.locVol + i)))) := by
  have hrep : Represents g X (fun c => (List.range (nDegs * sizeofT)).map (fun k => bytesOf e.native sizeofT (D c (k / sizeofT)) (k % sizeofT)))
      (fun r => chunk (nDegs * sizeofT) (m r)) := by
    intro r i hr hi
    refine map_congr' _ _ _ (fun k hk => ?_)
    obtain ⟨s1, s2, s3, s4⟩ := split_lt (a := 0) hk
    rw [← hm r i (k / sizeofT) (k % sizeofT) hr hi s1 s3]
    congr 1
    rw [Nat.add_mul, Nat.add_assoc, s4]; ring
  obtain ⟨⟨t0, h1⟩, h2⟩ := C35_write_partial g ok X hX hs _ _ hrep e.junkList e.junkElem e.packOrder he.pack (fun r => chunk (nDegs * sizeofT) (tempInit r))
  refine ⟨⟨_, t0, h1, rfl⟩, ?_⟩
  rintro temp ⟨tc, h3, rfl⟩ r hr
  have h4 := h2 tc h3
  simp only [siteBytes_map]
  rw [flat_map g.locVol (nDegs * sizeofT) (fun i k => bytesOf .big sizeofT (D (fileCoords g.L (r * g.locVol + i)) (k / sizeofT)) (k % sizeofT))]
  refine map_congr' _ _ _ (fun k hk => ?_)
  obtain ⟨s1, s2, s3, s4⟩ := split_lt (a := 0) hk
  obtain ⟨u1, u2, u3, u4⟩ := split_lt (a := 0) s3
  have hpos : k = (k / (nDegs * sizeofT) * nDegs + k % (nDegs * sizeofT) / sizeofT) * sizeofT + k % (nDegs * sizeofT) % sizeofT := by
    rw [Nat.add_mul, Nat.add_assoc, u4, Nat.mul_assoc, s4]
  have hpl : r * g.locVol + k / (nDegs * sizeofT) < g.glbVol := by
    rw [glbVol_eq g ok]; exact (join_lt hr s1).1
  obtain ⟨c1, c2⟩ := fileCoords_spec g.L _ (by rw [← glbVol_prod]; exact hpl)
  have h5 := h4 _ c1
  rw [c2, (join_lt hr s1).2.1, (join_lt hr s1).2.2] at h5
  conv_lhs => rw [hpos]
  rw [fixAll_at _ _ _ _ _ _ (join_lt s1 u1).1 u3]
  refine toBig e.native sizeofT _ _ _ u3 _ (fun j hj => ?_)
  beta_reduce
  have hp2 : (k / (nDegs * sizeofT) * nDegs + k % (nDegs * sizeofT) / sizeofT) * sizeofT + j =
      k / (nDegs * sizeofT) * (nDegs * sizeofT) + (k % (nDegs * sizeofT) / sizeofT * sizeofT + j) := by ring
  have hjj := (join_lt u1 hj)
  rw [hp2, unchunk_at _ _ _ _ hjj.1, h5, getD_map _ _ _ hjj.1, hjj.2.1, hjj.2.2]

theorem masterWrite_append (d : Disk) (data : List Byte) (h : ∀ rank, d.pos rank = d.bytes.length) :
    (masterWrite d data).bytes = d.bytes ++ data ∧ ∀ rank, (masterWrite d data).pos rank = (d.bytes ++ data).length := by
  constructor
  · simp only [masterWrite, overwrite, h 0, Nat.sub_self, List.replicate_zero, List.append_nil, List.take_length]
    rw [List.drop_of_length_le (by omega), List.append_nil]
  · intro rank
    rw [List.length_append]
    simp only [masterWrite, h rank]

theorem ceil8_of (n : Nat) (h : n % 8 = 0) : ceil8 n = n := by unfold ceil8; rw [(diff8_spec n).2.2 h, Nat.add_zero]

theorem padded_of (d : List Byte) (h : d.length % 8 = 0) : padded d = d := by
  unfold padded; rw [ceil8_of _ h, Nat.sub_self]; simp

/-- the data record -/
theorem writeDataRecord_eq (e : Env) (g : Geo) (ok : g.Ok) (he : EnvOk e g) (name : List Byte) (sizeofT nDegs : Nat) (D : Coords → Nat → Nat)
    (h8 : g.glbVol * (nDegs * sizeofT) % 8 = 0) (temp : Memory)
    (ht : ∀ r, r < g.nranks → (List.range (g.locVol * (nDegs * sizeofT))).map (temp r) =
        (List.range g.locVol).flatMap (fun i => siteBytes sizeofT nDegs (D (fileCoords g.L (r * g.locVol + i)))))
    (d : Disk) (hd : ∀ rank, d.pos rank = d.bytes.length) :
    let d' := writeDataRecord e g name (nDegs * sizeofT * g.glbVol) temp d
    d'.bytes = d.bytes ++ recBytes e.native e.junkReal ⟨name, fileData sizeofT nDegs g.L D⟩ ∧ ∀ rank, d'.pos rank = d'.bytes.length := by
  have hlen : nDegs * sizeofT * g.glbVol = g.glbVol * (nDegs * sizeofT) := Nat.mul_comm _ _
  have hfl : (fileData sizeofT nDegs g.L D).length = g.glbVol * (nDegs * sizeofT) := by rw [fileData_length, glbVol_prod]
  have hnb : nDegs * sizeofT * g.glbVol / g.nranks = g.locVol * (nDegs * sizeofT) := by
    rw [hlen, glbVol_eq g ok, Nat.mul_assoc]
    exact Nat.mul_div_cancel_left _ (nranks_pos g ok)
  intro d'
  have hrec : recBytes e.native e.junkReal ⟨name, fileData sizeofT nDegs g.L D⟩ =
      headerBytes e.native e.junkReal (buildHeader 0 0 name (nDegs * sizeofT * g.glbVol)) ++ fileData sizeofT nDegs g.L D := by
    unfold recBytes
    simp only
    rw [padded_of _ (by rw [hfl]; exact h8), hfl, ceil8_of _ h8, hlen]
  obtain ⟨a1, a2⟩ := masterWrite_append d (headerBytes e.native e.junkReal (buildHeader 0 0 name (nDegs * sizeofT * g.glbVol))) hd
  have hflat : (List.range g.nranks).flatMap (fun r => (List.range (g.locVol * (nDegs * sizeofT))).map (temp r)) = fileData sizeofT nDegs g.L D := by
    rw [flat_congr _ _ _ ht, flat_flat g.nranks g.locVol (fun p => siteBytes sizeofT nDegs (D (fileCoords g.L p))), ← glbVol_eq g ok, glbVol_prod]
    rfl
  have hd' : d' = ⟨d.bytes ++ headerBytes e.native e.junkReal (buildHeader 0 0 name (nDegs * sizeofT * g.glbVol)) ++ fileData sizeofT nDegs g.L D,
      fun r => (d.bytes ++ headerBytes e.native e.junkReal (buildHeader 0 0 name (nDegs * sizeofT * g.glbVol))).length + g.glbVol * (nDegs * sizeofT)⟩ := by
    show writeDataRecord _ _ _ _ _ _ = _
    unfold writeDataRecord
    simp only
    rw [if_neg (by rw [hlen]; omega), hnb, setPosition]
    simp only [a2]
    rw [a1, writeBlocks_eq g.nranks _ _ he.ranks, hflat, ceil8_of _ (by rw [hlen]; exact h8), hlen]
  rw [hd', hrec]
  simp only
  refine ⟨by simp [List.append_assoc], fun rank => ?_⟩
  rw [List.length_append (bs := fileData sizeofT nDegs g.L D), hfl]

/-- C73: whatever the grid of ranks, the machine and the schedules, writing a field appends to the file the messages, then one record with the field
(sites in the order of the file, numbers big-endian), then the record of the checksum of the field -/
theorem C73_write_partial (e : Env) (g : Geo) (ok : g.Ok) (he : EnvOk e g) (hV : g.glbVol < 2 ^ 32) (X : Nat → Nat → Coords) (hX : CoordTable g X)
    (hs : CopyOk g (indexToIldg g X)) (sizeofT nDegs : Nat) (hpos : 0 < nDegs * sizeofT) (h8 : g.glbVol * (nDegs * sizeofT) % 8 = 0) (name : List Byte) (ms : List Msg) (D : Coords → Nat → Nat)
    (m : Memory) (hm : InMemory e.native sizeofT nDegs g X D m) (d : Disk) (hd : ∀ rank, d.pos rank = d.bytes.length) :
    (∃ d', WritesVector e g X sizeofT nDegs name ms m d d') ∧
    ∀ d', WritesVector e g X sizeofT nDegs name ms m d d' →
      d'.bytes = d.bytes ++ (ms ++ [⟨name, fileData sizeofT nDegs g.L D⟩,
        checksumMsg (specChecksum sizeofT nDegs g.L D 0).toNat (specChecksum sizeofT nDegs g.L D 1).toNat]).flatMap (recBytes e.native e.junkReal) ∧
      ∀ rank, d'.pos rank = d'.bytes.length := by
  have hg : 0 < g.glbVol := by rw [glbVol_eq g ok]; exact Nat.mul_pos (nranks_pos g ok) (locVol_pos g ok)
  have hq : nDegs * sizeofT * g.glbVol / g.glbVol = nDegs * sizeofT := Nat.mul_div_cancel _ hg
  obtain ⟨m1, m2⟩ := C22_write e.native e.junkReal d hd ms
  constructor
  · obtain ⟨⟨temp, h1⟩, -⟩ := remapped_piece e g ok he X hX hs sizeofT nDegs D m hm (fun _ _ => 0#8)
    refine ⟨_, _, ⟨fun _ _ => 0#8, temp, ?_, rfl⟩, rfl⟩
    rw [hq]; exact h1
  · rintro d' ⟨d2, ⟨ti, temp, h1, rfl⟩, rfl⟩
    rw [hq] at h1
    have hp := (remapped_piece e g ok he X hX hs sizeofT nDegs D m hm ti).2 temp h1
    obtain ⟨w1, w2⟩ := writeDataRecord_eq e g ok he name sizeofT nDegs D h8 _ hp _ m2
    rw [C23_write, checkOf_spec e g ok he hV X hX sizeofT nDegs D m hm, checkOf_spec e g ok he hV X hX sizeofT nDegs D m hm]
    obtain ⟨v1, v2⟩ := C22_write e.native e.junkReal _ w2 [checksumMsg (specChecksum sizeofT nDegs g.L D 0).toNat (specChecksum sizeofT nDegs g.L D 1).toNat]
    refine ⟨?_, v2⟩
    rw [v1, w1, m1]
    simp [List.append_assoc]

/-! ### Reading -/

theorem remaps_back (e : Env) (g : Geo) (ok : g.Ok) (he : EnvOk e g) (X : Nat → Nat → Coords) (hX : CoordTable g X) (hs : CopyOk g (indexFromIldg g))
    (nDegs : Nat) (D : Coords → Nat → Nat) (inp init : Memory)
    (hi : ∀ r i, r < g.nranks → i < g.locVol → chunk (nDegs * 8) (inp r) i = siteBytes 8 nDegs (D (fileCoords g.L (r * g.locVol + i)))) :
    (∃ out, Remaps e g (indexFromIldg g) (nDegs * 8) inp init out) ∧
    ∀ out, Remaps e g (indexFromIldg g) (nDegs * 8) inp init out →
      InMemory e.native 8 nDegs g X D (fun r => fixAll (fixToNative e.native .big 8 e.junkReal) 8 (g.locVol * nDegs) (out r)) := by
  obtain ⟨⟨oc, h1⟩, h2⟩ := block_run g ok _ _ (block_bij g ok X hX _ _ (ildg_order g.L (L_pos ok))).symm hs
    (fun r => chunk (nDegs * 8) (inp r)) e.junkList e.junkElem e.packOrder he.pack (fun r => chunk (nDegs * 8) (init r))
  refine ⟨⟨_, oc, h1, rfl⟩, ?_⟩
  rintro out ⟨oc, h3, rfl⟩ r i d b hr hi' hd hb
  have h4 := (h2 oc h3).2 r i hr hi'
  obtain ⟨c1, c2⟩ := coordTable_of g ok X hX r i hr hi'
  have hpl := filePlace_lt g ok _ c1
  have hlp := locVol_pos g ok
  have hq : filePlace g.L (X r i) / g.locVol < g.nranks := by
    rw [Nat.div_lt_iff_lt_mul hlp, ← glbVol_eq g ok]; exact hpl
  have h5 : oc r i = siteBytes 8 nDegs (D (X r i)) := by
    rw [h4]
    show chunk (nDegs * 8) (inp (ildgOfCoords g.L (X r i) / g.locVol)) (ildgOfCoords g.L (X r i) % g.locVol) = _
    rw [filePlace_eq, hi _ _ hq (Nat.mod_lt _ hlp), Nat.div_add_mod', fileCoords_place g ok _ c1]
  show fixAll _ 8 _ _ _ = _
  rw [fixAll_at _ _ _ _ _ _ (join_lt hi' hd).1 hb]
  refine fromBig e.native 8 _ _ _ hb _ (fun j hj => ?_)
  beta_reduce
  have hjj := join_lt hd hj
  rw [show (i * nDegs + d) * 8 + j = i * (nDegs * 8) + (d * 8 + j) by ring, unchunk_at _ _ _ _ hjj.1, h5, siteBytes_map, getD_map _ _ _ hjj.1, hjj.2.1, hjj.2.2]

/-- the reading of a record of `bps` bytes per site: what the program does, step by step -/
theorem reads_iff (e : Env) (g : Geo) (ok : g.Ok) (X : Nat → Nat → Coords) (nDegs bps : Nat) (hbs : bps ≤ nDegs * 8) (data : List Byte)
    (hfl : data.length = g.glbVol * bps) (h8 : data.length % 8 = 0) (m1 : Endianness) (junk1 : Mem) (before between : List Msg) (post : List Byte)
    (name : List Byte) (okd : MsgOk ⟨name, data⟩) (okb : ∀ x ∈ before, MsgOk x) (hne : ∀ x ∈ before, x.name ≠ name)
    (oka : ∀ x ∈ between, MsgOk x) (hna : ∀ x ∈ between, x.name ≠ toBytes (lit "scidac-checksum")) (a b : Nat) (ha : a < 2 ^ 32) (hb : b < 2 ^ 32)
    (collect : Bool) (init : Memory) :
    let bytes := (before ++ ⟨name, data⟩ :: between ++ [checksumMsg a b]).flatMap (recBytes m1 junk1) ++ post
    (∀ res, ReadsVector e g X nDegs name collect bytes init res ↔ ∃ (bufInit out : Memory), Remaps e g (indexFromIldg g) bps
        (fun r => readBlock bytes ((before.flatMap (recBytes m1 junk1)).length + 144 + r * (g.locVol * bps)) (g.locVol * bps) (bufInit r)) init out ∧
      res = some (fun r => fixAll (fixToNative e.native .big 8 e.junkReal) 8 (g.locVol * nDegs) (out r), if collect then collected before else [], verdictOf (a, b)
        (checkOf e 8 nDegs g X (fun r => fixAll (fixToNative e.native .big 8 e.junkReal) 8 (g.locVol * nDegs) (out r)) 0,
          checkOf e 8 nDegs g X (fun r => fixAll (fixToNative e.native .big 8 e.junkReal) 8 (g.locVol * nDegs) (out r)) 1))) ∧
    ∀ k, k < g.glbVol * bps → bytes.getD ((before.flatMap (recBytes m1 junk1)).length + 144 + k) 0#8 = data.getD k 0#8 := by
  intro bytes
  have hg : 0 < g.glbVol := by rw [glbVol_eq g ok]; exact Nat.mul_pos (nranks_pos g ok) (locVol_pos g ok)
  obtain ⟨h, e1, e2, -⟩ := search_found_at m1 e.native junk1 e.junkReal e.ignoreMagic collect [] 
    (between.flatMap (recBytes m1 junk1) ++ (recBytes m1 junk1 (checksumMsg a b) ++ post)) rfl before ⟨name, data⟩ okb okd hne
  have hbytes : [] ++ before.flatMap (recBytes m1 junk1) ++ (recBytes m1 junk1 ⟨name, data⟩ ++
      (between.flatMap (recBytes m1 junk1) ++ (recBytes m1 junk1 (checksumMsg a b) ++ post))) = bytes := by
    simp [bytes, List.append_assoc]
  rw [hbytes] at e1
  simp only [List.nil_append, List.length_nil] at e1
  rw [ceil8_of _ h8, hfl] at e2
  have hbps : h.length / g.glbVol = bps := by rw [e2]; exact Nat.mul_div_cancel_left _ hg
  have hnb : h.length / g.nranks = g.locVol * bps := by
    rw [e2, glbVol_eq g ok, Nat.mul_assoc]; exact Nat.mul_div_cancel_left _ (nranks_pos g ok)
  have hrl := recBytes_mod m1 junk1 _ okd
  rw [padded_of _ h8, hfl] at hrl
  have hrec : recBytes m1 junk1 ⟨name, data⟩ = headerBytes m1 junk1 (buildHeader 0 0 name (ceil8 data.length)) ++ data := by
    unfold recBytes; simp only; rw [padded_of _ h8]
  have hhl : (headerBytes m1 junk1 (buildHeader 0 0 name (ceil8 data.length))).length = 144 :=
    headerBytes_length _ _ _ (buildHeader_ok _ okd)
  have hlong : (before.flatMap (recBytes m1 junk1)).length + 144 + g.glbVol * bps ≤ bytes.length := by
    rw [← hbytes]
    simp only [List.nil_append, List.length_append]
    omega
  have hshort : ¬ ∃ r, r < g.nranks ∧ bytes.length < (before.flatMap (recBytes m1 junk1)).length + 144 + r * (h.length / g.nranks) + h.length / g.nranks := by
    rintro ⟨r, hr, hlt⟩
    rw [hnb] at hlt
    have : r * (g.locVol * bps) + g.locVol * bps ≤ g.glbVol * bps := by
      calc _ = (r + 1) * (g.locVol * bps) := by ring
        _ ≤ g.nranks * (g.locVol * bps) := Nat.mul_le_mul_right _ hr
        _ = _ := by rw [glbVol_eq g ok]; ring
    omega
  -- the checksum
  obtain ⟨s', ec⟩ := C23_read m1 e.native junk1 e.junkReal e.ignoreMagic (before.flatMap (recBytes m1 junk1) ++ recBytes m1 junk1 ⟨name, data⟩) post
    (by have := (flat_mod m1 junk1 before okb).1; rw [List.length_append, hrl]; rw [hfl] at h8; omega) between oka hna a b ha hb
  have hb2 : before.flatMap (recBytes m1 junk1) ++ recBytes m1 junk1 ⟨name, data⟩ ++ between.flatMap (recBytes m1 junk1) ++
      (recBytes m1 junk1 (checksumMsg a b) ++ post) = bytes := by rw [← hbytes]; simp [List.append_assoc]
  rw [hb2, List.length_append, hrl] at ec
  have hpos : (before.flatMap (recBytes m1 junk1)).length + 144 + ceil8 h.length =
      (before.flatMap (recBytes m1 junk1)).length + (144 + g.glbVol * bps) := by
    rw [e2, ceil8_of _ (by rw [← hfl]; exact h8)]; omega
  generalize (if collect then collected before else []) = msgs at e1 ⊢
  constructor
  · intro res
    unfold ReadsVector
    rw [e1]
    simp only
    rw [if_neg (by rw [hbps]; omega), if_neg hshort, hpos, ec, hbps, hnb]
    rfl
  · intro k hk
    have : bytes = (before.flatMap (recBytes m1 junk1) ++ headerBytes m1 junk1 (buildHeader 0 0 name (ceil8 data.length))) ++
        (data ++ (between.flatMap (recBytes m1 junk1) ++ (recBytes m1 junk1 (checksumMsg a b) ++ post))) := by
      rw [← hbytes, hrec]; simp [List.append_assoc]
    unfold List.getD
    rw [this, List.getElem?_append_right (by rw [List.length_append, hhl]; omega), List.length_append, hhl,
      show (before.flatMap (recBytes m1 junk1)).length + 144 + k - ((before.flatMap (recBytes m1 junk1)).length + 144) = k by omega,
      List.getElem?_append_left (by rw [hfl]; exact hk)]

/-- C73: a file with any records before the data, any records between the data and the checksum, written by any machine, is read on every grid of
ranks as the field it contains; the records before the data are given back as messages; the verdict compares the checksum stored and the one of the field -/
theorem C73_read_partial (e : Env) (g : Geo) (ok : g.Ok) (he : EnvOk e g) (hV : g.glbVol < 2 ^ 32) (X : Nat → Nat → Coords) (hX : CoordTable g X)
    (hs : CopyOk g (indexFromIldg g)) (nDegs : Nat) (D : Coords → Nat → Nat) (m1 : Endianness) (junk1 : Mem) (before between : List Msg) (post : List Byte)
    (name : List Byte) (okd : MsgOk ⟨name, fileData 8 nDegs g.L D⟩) (okb : ∀ x ∈ before, MsgOk x) (hne : ∀ x ∈ before, x.name ≠ name)
    (oka : ∀ x ∈ between, MsgOk x) (hna : ∀ x ∈ between, x.name ≠ toBytes (lit "scidac-checksum")) (a b : Nat) (ha : a < 2 ^ 32) (hb : b < 2 ^ 32)
    (collect : Bool) (init : Memory) :
    let bytes := (before ++ ⟨name, fileData 8 nDegs g.L D⟩ :: between ++ [checksumMsg a b]).flatMap (recBytes m1 junk1) ++ post
    (∃ res, ReadsVector e g X nDegs name collect bytes init res) ∧
    ∀ res, ReadsVector e g X nDegs name collect bytes init res → ∃ m, InMemory e.native 8 nDegs g X D m ∧
      res = some (m, if collect then collected before else [],
        verdictOf (a, b) ((specChecksum 8 nDegs g.L D 0).toNat, (specChecksum 8 nDegs g.L D 1).toNat)) := by
  have hfl : (fileData 8 nDegs g.L D).length = g.glbVol * (nDegs * 8) := by rw [fileData_length, glbVol_prod]
  have h8 : (fileData 8 nDegs g.L D).length % 8 = 0 := by rw [hfl, ← Nat.mul_assoc]; exact Nat.mul_mod_left _ _
  obtain ⟨key, hdata⟩ := reads_iff e g ok X nDegs (nDegs * 8) (Nat.le_refl _) _ hfl h8 m1 junk1 before between post name okd okb hne oka hna a b ha hb collect init
  intro bytes
  have hchunk : ∀ bufInit : Memory, ∀ r i, r < g.nranks → i < g.locVol →
      chunk (nDegs * 8) (readBlock bytes ((before.flatMap (recBytes m1 junk1)).length + 144 + r * (g.locVol * (nDegs * 8))) (g.locVol * (nDegs * 8)) (bufInit r)) i =
        siteBytes 8 nDegs (D (fileCoords g.L (r * g.locVol + i))) := by
    intro bufInit r i hr hi
    rw [siteBytes_map]
    refine map_congr' _ _ _ (fun k hk => ?_)
    have j1 := join_lt hi hk
    have j2 := join_lt hr hi
    have j3 : (r * g.locVol + i) * (nDegs * 8) + k < g.glbVol * (nDegs * 8) := by
      rw [glbVol_eq g ok]; exact (join_lt j2.1 hk).1
    have j4 := join_lt j2.1 hk
    unfold readBlock
    rw [if_pos j1.1]
    rw [show (before.flatMap (recBytes m1 junk1)).length + 144 + r * (g.locVol * (nDegs * 8)) + (i * (nDegs * 8) + k) =
      (before.flatMap (recBytes m1 junk1)).length + 144 + ((r * g.locVol + i) * (nDegs * 8) + k) by ring, hdata _ j3, fileData_map, ← glbVol_prod,
      getD_map _ _ _ j3, j4.2.1, j4.2.2]
  have hre := fun bufInit : Memory => remaps_back e g ok he X hX hs nDegs D _ init (hchunk bufInit)
  constructor
  · obtain ⟨⟨out, ho⟩, -⟩ := hre (fun _ _ => 0#8)
    exact ⟨_, (key _).2 ⟨fun _ _ => 0#8, out, ho, rfl⟩⟩
  · intro res hres
    obtain ⟨bufInit, out, ho, rfl⟩ := (key res).1 hres
    have hm := (hre bufInit).2 out ho
    refine ⟨_, hm, ?_⟩
    rw [checkOf_spec e g ok he hV X hX 8 nDegs D _ hm, checkOf_spec e g ok he hV X hX 8 nDegs D _ hm]

/-! ### Gauge configurations -/

/-- the file contains, for each site, the links in the directions x, y, z, t: the link `nu` of the file is the one of direction `(nu+1)%4` (t is 0) -/
def ildgLinks (D : Coords → Nat → Nat) (c : Coords) (k : Nat) : Nat := D c ((k / 18 + 1) % 4 * 18 + k % 18)

theorem reordSite_to (m : Nat → Byte) (b : Nat) (hb : b < 576) : reordSite toIldg m b = m ((b / 144 + 1) % 4 * 144 + b % 144) := by
  have h : b / 144 = 0 ∨ b / 144 = 1 ∨ b / 144 = 2 ∨ b / 144 = 3 := by omega
  unfold reordSite
  rw [show List.range 4 = [0, 1, 2, 3] from rfl]
  simp only [List.foldl_cons, List.foldl_nil, toIldg, linkBytes]
  rcases h with h | h | h | h <;> simp [h]

theorem reordSite_from (m : Nat → Byte) (b : Nat) (hb : b < 576) : reordSite fromIldg m b = m ((b / 144 + 3) % 4 * 144 + b % 144) := by
  have h : b / 144 = 0 ∨ b / 144 = 1 ∨ b / 144 = 2 ∨ b / 144 = 3 := by omega
  unfold reordSite
  rw [show List.range 4 = [0, 1, 2, 3] from rfl]
  simp only [List.foldl_cons, List.foldl_nil, fromIldg, linkBytes]
  rcases h with h | h | h | h <;> simp [h]

theorem reordAll_at (dest : Nat → Nat) (locVol : Nat) (m : Nat → Byte) (i j : Nat) (hi : i < locVol) (hj : j < 576) :
    reordAll dest locVol m (i * 576 + j) = reordSite dest (fun j => m (i * 576 + j)) j := by
  obtain ⟨h1, h2, h3⟩ := join_lt hi hj
  unfold reordAll
  rw [show 4 * linkBytes = 576 from rfl, if_pos h1, h2, h3]

theorem reordAll_back (locVol : Nat) (m : Nat → Byte) : reordAll fromIldg locVol (reordAll toIldg locVol m) = m := by
  funext k
  by_cases h : k < locVol * 576
  · obtain ⟨s1, s2, s3, s4⟩ := split_lt (a := 0) h
    rw [← s4, reordAll_at _ _ _ _ _ s1 s3, reordSite_from _ _ s3]
    beta_reduce
    have hlt : (k % 576 / 144 + 3) % 4 * 144 + k % 576 % 144 < 576 := by omega
    rw [reordAll_at _ _ _ _ _ s1 hlt, reordSite_to _ _ hlt]
    beta_reduce
    congr 1; omega
  · unfold reordAll
    rw [show 4 * linkBytes = 576 from rfl, if_neg h, if_neg h]

theorem reord_to (native : Endianness) (g : Geo) (X : Nat → Nat → Coords) (D : Coords → Nat → Nat) (m : Memory) (hm : InMemory native 8 72 g X D m) :
    InMemory native 8 72 g X (ildgLinks D) (fun r => reordAll toIldg g.locVol (m r)) := by
  intro r i d b hr hi hd hb
  beta_reduce
  rw [show (i * 72 + d) * 8 + b = i * 576 + (d * 8 + b) by ring, reordAll_at _ _ _ _ _ hi (by omega), reordSite_to _ _ (by omega)]
  unfold ildgLinks
  rw [← hm r i ((d / 18 + 1) % 4 * 18 + d % 18) b hr hi (by omega) hb]
  congr 1
  have h1 : (d * 8 + b) / 144 = d / 18 := by omega
  have h2 : (d * 8 + b) % 144 = d % 18 * 8 + b := by omega
  rw [h1, h2]; ring

theorem reord_from (native : Endianness) (g : Geo) (X : Nat → Nat → Coords) (D : Coords → Nat → Nat) (m : Memory) (hm : InMemory native 8 72 g X (ildgLinks D) m) :
    InMemory native 8 72 g X D (fun r => reordAll fromIldg g.locVol (m r)) := by
  intro r i d b hr hi hd hb
  beta_reduce
  rw [show (i * 72 + d) * 8 + b = i * 576 + (d * 8 + b) by ring, reordAll_at _ _ _ _ _ hi (by omega), reordSite_from _ _ (by omega)]
  have := hm r i ((d / 18 + 3) % 4 * 18 + d % 18) b hr hi (by omega) hb
  unfold ildgLinks at this
  rw [show (((d / 18 + 3) % 4 * 18 + d % 18) / 18 + 1) % 4 * 18 + ((d / 18 + 3) % 4 * 18 + d % 18) % 18 = d by omega] at this
  rw [← this]
  congr 1
  have h1 : (d * 8 + b) / 144 = d / 18 := by omega
  have h2 : (d * 8 + b) % 144 = d % 18 * 8 + b := by omega
  rw [h1, h2]; ring

/-- the record describing the format -/
def formatMsg (L : Coords) : Msg := ⟨toBytes (lit "ildg-format"), toBytes (formatOf L) ++ [0#8]⟩

/-- C73: the file of a configuration has the record of the format, the messages, the record of the links (sites with x fastest, then y, z, t; in
each the links in the directions x, y, z, t; numbers big-endian) and the checksum of that record; the configuration in memory is left as it was -/
theorem C73_conf_write_partial (e : Env) (g : Geo) (ok : g.Ok) (he : EnvOk e g) (hV : g.glbVol < 2 ^ 32) (X : Nat → Nat → Coords) (hX : CoordTable g X)
    (hs : CopyOk g (indexToIldg g X)) (ms : List Msg) (D : Coords → Nat → Nat) (conf : Memory) (hm : InMemory e.native 8 72 g X D conf) :
    (∃ d' conf', WritesConf e g X ms conf d' conf') ∧
    ∀ d' conf', WritesConf e g X ms conf d' conf' →
      d'.bytes = (formatMsg g.L :: ms ++ [⟨confName, fileData 8 72 g.L (ildgLinks D)⟩,
        checksumMsg (specChecksum 8 72 g.L (ildgLinks D) 0).toNat (specChecksum 8 72 g.L (ildgLinks D) 1).toNat]).flatMap (recBytes e.native e.junkReal) ∧
      conf' = conf := by
  have hw : writeTextRecord e.native e.junkReal emptyDisk (toBytes (lit "ildg-format")) (formatOf g.L) =
      writeAllMessages e.native e.junkReal emptyDisk [formatMsg g.L] := rfl
  obtain ⟨f1, f2⟩ := C22_write e.native e.junkReal emptyDisk (fun _ => rfl) [formatMsg g.L]
  obtain ⟨⟨d0, w1⟩, w2⟩ := C73_write_partial e g ok he hV X hX hs 8 72 (by norm_num) (by omega) confName ms (ildgLinks D) _ (reord_to e.native g X D conf hm)
    (writeAllMessages e.native e.junkReal emptyDisk [formatMsg g.L]) f2
  unfold WritesConf
  rw [hw]
  refine ⟨⟨d0, _, w1, rfl⟩, ?_⟩
  rintro d' conf' ⟨h1, rfl⟩
  obtain ⟨h2, -⟩ := w2 d' h1
  refine ⟨?_, ?_⟩
  · rw [h2, f1]
    simp [emptyDisk, List.append_assoc]
  · funext r
    exact reordAll_back _ _

theorem print_chars (n : Nat) : ∀ c ∈ Nissa.Text.print 8 n, 0 < c ∧ c < 128 := by
  intro c hc
  rw [Nissa.Text.print_eq] at hc
  obtain ⟨d, hd, rfl⟩ := List.mem_map.1 hc
  have := Nissa.Text.digits_lt 8 n d hd
  unfold Nissa.Text.digitCode
  split <;> omega

/-- C73: the description of the format fits the 1024 characters of the buffer for every lattice -/
theorem C73_format_buffer (L : Coords) (hL : ∀ mu, L mu < 2 ^ 31) : (formatOf L).length + 1 ≤ 1024 := by
  have hp : ∀ n, n < 2 ^ 31 → (Nissa.Text.print 8 n).length ≤ 11 := by
    intro n hn
    have := (Nissa.Text.printInt_length (n : Int) (by omega) (by omega)).2
    unfold Nissa.Text.printInt at this
    rw [if_neg (by omega), Int.natAbs_natCast] at this
    exact this
  have h1 := hp _ (hL 0)
  have h2 := hp _ (hL 1)
  have h3 := hp _ (hL 2)
  have h4 := hp _ (hL 3)
  have h5 := hp 64 (by norm_num)
  unfold formatOf formatText
  simp only [List.length_append, (by decide +kernel : (lit "<?xml version=\"1.0\" encoding=\"UTF-8\"?>\n").length = 39), (by decide +kernel : (lit "<ildgFormat xmlns=\"http://www.lqcd.org/ildg\"\n").length = 45), (by decide +kernel : (lit "            xmlns:xsi=\"http://www.w3.org/2001/XMLSchema-instance\"\n").length = 66), (by decide +kernel : (lit "            xsi:schemaLocation=\"http://www.lqcd.org/ildg filefmt.xsd\">\n").length = 71), (by decide +kernel : (lit "  <version>1.0</version>\n").length = 25), (by decide +kernel : (lit "  <field>su3gauge</field>\n").length = 26), (by decide +kernel : (lit "  <precision>").length = 13), (by decide +kernel : (lit "</precision>\n").length = 13), (by decide +kernel : (lit "  <lx>").length = 6), (by decide +kernel : (lit "</lx>\n").length = 6), (by decide +kernel : (lit "  <ly>").length = 6), (by decide +kernel : (lit "</ly>\n").length = 6), (by decide +kernel : (lit "  <lz>").length = 6), (by decide +kernel : (lit "</lz>\n").length = 6), (by decide +kernel : (lit "  <lt>").length = 6), (by decide +kernel : (lit "</lt>\n").length = 6), (by decide +kernel : (lit "</ildgFormat>").length = 13)]
  omega

theorem formatMsg_ok (L : Coords) (hL : ∀ mu, L mu < 2 ^ 31) : MsgOk (formatMsg L) := by
  refine ⟨(by decide +kernel : (0#8) ∉ toBytes (lit "ildg-format")), (by decide +kernel : (toBytes (lit "ildg-format")).length ≤ 127), ?_⟩
  show (toBytes (formatOf L) ++ [0#8]).length < 2 ^ 63
  have := C73_format_buffer L hL
  rw [List.length_append, toBytes, List.length_map, List.length_singleton]
  omega

theorem spec_lt (x : BitVec 32) : x.toNat < 2 ^ 32 := x.isLt

/-- C73: a configuration written by any program and read by any other (other grid, other endianness) is the same; the messages are given back, after
the description of the format; the checksum is never reported as wrong -/
theorem C73_conf_roundtrip_partial (e1 e2 : Env) (g1 g2 : Geo) (ok1 : g1.Ok) (ok2 : g2.Ok) (hL : g1.L = g2.L) (he1 : EnvOk e1 g1) (he2 : EnvOk e2 g2)
    (hV : g1.glbVol < 2 ^ 32) (hS : ∀ mu, g1.L mu < 2 ^ 31) (X1 X2 : Nat → Nat → Coords) (hX1 : CoordTable g1 X1) (hX2 : CoordTable g2 X2) (hs1 : CopyOk g1 (indexToIldg g1 X1))
    (hs2 : CopyOk g2 (indexFromIldg g2)) (ms : List Msg) (okm : ∀ x ∈ ms, MsgOk x) (hne : ∀ x ∈ ms, x.name ≠ confName) (D : Coords → Nat → Nat)
    (conf : Memory) (hm : InMemory e1.native 8 72 g1 X1 D conf) (d' : Disk) (conf' : Memory) (hw : WritesConf e1 g1 X1 ms conf d' conf')
    (collect : Bool) (init : Memory) :
    (∃ res, ReadsConf e2 g2 X2 collect d'.bytes init res) ∧
    ∀ res, ReadsConf e2 g2 X2 collect d'.bytes init res → ∃ m v, InMemory e2.native 8 72 g2 X2 D m ∧
      res = some (m, if collect then collected (formatMsg g1.L :: ms) else [], v) ∧ v ≠ Verdict.disagree ∧
      (v = Verdict.notFound → ∀ k, specChecksum 8 72 g1.L (ildgLinks D) k = 0#32) := by
  have hV2 : g2.glbVol < 2 ^ 32 := by rw [Geo.glbVol, ← hL]; exact hV
  obtain ⟨hb, -⟩ := (C73_conf_write_partial e1 g1 ok1 he1 hV X1 hX1 hs1 ms D conf hm).2 d' conf' hw
  have okd : MsgOk ⟨confName, fileData 8 72 g2.L (ildgLinks D)⟩ := by
    refine ⟨(by decide +kernel : (0#8) ∉ confName), (by decide +kernel : confName.length ≤ 127), ?_⟩
    show (fileData 8 72 g2.L (ildgLinks D)).length < 2 ^ 63
    rw [fileData_length, ← glbVol_prod]; omega
  have hR := C73_read_partial e2 g2 ok2 he2 hV2 X2 hX2 hs2 72 (ildgLinks D) e1.native e1.junkReal (formatMsg g1.L :: ms) [] [] confName okd
    (by
      intro x hx
      rcases List.mem_cons.1 hx with h | h
      · rw [h]; exact formatMsg_ok _ hS
      · exact okm x h)
    (by
      intro x hx
      rcases List.mem_cons.1 hx with h | h
      · rw [h]; exact (by decide +kernel : toBytes (lit "ildg-format") ≠ confName)
      · exact hne x h)
    (by simp) (by simp) (specChecksum 8 72 g1.L (ildgLinks D) 0).toNat (specChecksum 8 72 g1.L (ildgLinks D) 1).toNat (spec_lt _) (spec_lt _) collect init
  have hbytes : ((formatMsg g1.L :: ms) ++ (⟨confName, fileData 8 72 g2.L (ildgLinks D)⟩ : Msg) :: [] ++
      [checksumMsg (specChecksum 8 72 g1.L (ildgLinks D) 0).toNat (specChecksum 8 72 g1.L (ildgLinks D) 1).toNat]).flatMap (recBytes e1.native e1.junkReal) ++ [] = d'.bytes := by
    rw [hb, ← hL]; simp [List.append_assoc]
  simp only at hR
  rw [hbytes] at hR
  obtain ⟨⟨r0, hr0⟩, hR⟩ := hR
  refine ⟨⟨_, r0, hr0, rfl⟩, ?_⟩
  rintro res ⟨r, hr, rfl⟩
  obtain ⟨m, hmm, rfl⟩ := hR r hr
  refine ⟨_, _, reord_from e2.native g2 X2 D m hmm, rfl, ?_, ?_⟩
  · rw [← hL]
    unfold verdictOf
    split
    · rw [if_neg (by simp)]; decide
    · decide
  · rw [← hL]
    unfold verdictOf
    split
    · rw [if_neg (by simp)]; intro h; cases h
    · rename_i h
      intro _ k
      simp only [not_or, not_not] at h
      have : k = 0 ∨ k = 1 := by revert k; decide
      rcases this with rfl | rfl
      · exact BitVec.eq_of_toNat_eq h.1
      · exact BitVec.eq_of_toNat_eq h.2

theorem verdict_disagree (r c : Nat × Nat) (h : r.1 ≠ c.1) (hz : r.1 ≠ 0 ∨ r.2 ≠ 0) : verdictOf r c = .disagree := by
  unfold verdictOf
  rw [if_pos hz, if_pos (Or.inl h)]

/-- C73: if the file contains, at one site, bytes different from those of the field the checksum was computed from (a run of at most 4 bytes), the
reading tells that checksums do not agree, unless those stored are both zero -/
theorem C73_corruption_partial (e : Env) (g : Geo) (ok : g.Ok) (he : EnvOk e g) (hV : g.glbVol < 2 ^ 32) (X : Nat → Nat → Coords) (hX : CoordTable g X)
    (hs : CopyOk g (indexFromIldg g)) (nDegs : Nat) (D D' : Coords → Nat → Nat) (c : Coords) (hc : ∀ mu, c mu < g.L mu) (hother : ∀ c', c' ≠ c → D' c' = D c')
    (pre mid mid' post' : List Byte) (hl : mid.length = mid'.length) (h4 : mid.length ≤ 4) (hdiff : mid ≠ mid')
    (hD : siteBytes 8 nDegs (D c) = pre ++ mid ++ post') (hD' : siteBytes 8 nDegs (D' c) = pre ++ mid' ++ post')
    (hz : ∃ k, specChecksum 8 nDegs g.L D k ≠ 0#32)
    (m1 : Endianness) (junk1 : Mem) (before : List Msg) (post : List Byte)
    (name : List Byte) (okd : MsgOk ⟨name, fileData 8 nDegs g.L D'⟩) (okb : ∀ x ∈ before, MsgOk x) (hne : ∀ x ∈ before, x.name ≠ name)
    (collect : Bool) (init : Memory) (res : Option (Memory × List Msg × Verdict))
    (hres : ReadsVector e g X nDegs name collect ((before ++ [⟨name, fileData 8 nDegs g.L D'⟩,
      checksumMsg (specChecksum 8 nDegs g.L D 0).toNat (specChecksum 8 nDegs g.L D 1).toNat]).flatMap (recBytes m1 junk1) ++ post) init res) :
    ∃ m msgs, res = some (m, msgs, Verdict.disagree) := by
  obtain ⟨-, hR⟩ := C73_read_partial e g ok he hV X hX hs nDegs D' m1 junk1 before [] post name okd okb hne (by simp) (by simp)
    (specChecksum 8 nDegs g.L D 0).toNat (specChecksum 8 nDegs g.L D 1).toNat (spec_lt _) (spec_lt _) collect init
  obtain ⟨m, -, rfl⟩ := hR res (by simpa using hres)
  refine ⟨m, if collect then collected before else [], ?_⟩
  have hne0 := C21_corruption_detected 8 nDegs g.L D D' c hc hother pre mid mid' post' hl h4 hdiff hD hD' 0
  have h1 : (specChecksum 8 nDegs g.L D 0).toNat ≠ (specChecksum 8 nDegs g.L D' 0).toNat := fun h => hne0 (BitVec.eq_of_toNat_eq h).symm
  obtain ⟨k, hk⟩ := hz
  rw [verdict_disagree _ _ h1 ?_]
  have hk' : (specChecksum 8 nDegs g.L D k).toNat ≠ 0 := fun h => hk (BitVec.eq_of_toNat_eq h)
  have : ∀ k : Fin 2, k = 0 ∨ k = 1 := by decide
  rcases this k with rfl | rfl
  · exact Or.inl hk'
  · exact Or.inr hk'

/-! ### Disagreements -/

/-- the sites of a lattice of extents x=4, y=6, z=10, t=8 are written with rows of 4 sites, but the description of the format says that the rows (lx) are of
10 sites: sizes are written in reverse order -/
theorem C73_violated_sizes : let L : Coords := ![8, 4, 6, 10]
    fileCoords L 0 = ![0, 0, 0, 0] ∧ fileCoords L 1 = ![0, 1, 0, 0] ∧ fileCoords L 4 = ![0, 0, 1, 0] ∧
    formatOf L = formatText 64 10 6 4 8 ∧ formatOf L ≠ formatText 64 4 6 10 8 := by
  refine ⟨by decide +kernel, by decide +kernel, by decide +kernel, rfl, by decide +kernel⟩

/-- a record with half of the bytes per site (single precision) is accepted, and what is given as the second half of the numbers of each rank is
whatever the memory contained before -/
theorem C73_violated_single_precision (e : Env) (g : Geo) (ok : g.Ok) (he : EnvOk e g) (X : Nat → Nat → Coords) (hX : CoordTable g X) (hs : CopyOk g (indexFromIldg g))
    (nDegs : Nat) (hn : 0 < nDegs) (data : List Byte)
    (hfl : data.length = g.glbVol * (nDegs * 4)) (h8 : data.length % 8 = 0) (m1 : Endianness) (junk1 : Mem) (before : List Msg)
    (name : List Byte) (okd : MsgOk ⟨name, data⟩) (okb : ∀ x ∈ before, MsgOk x) (hne : ∀ x ∈ before, x.name ≠ name) (a b : Nat) (ha : a < 2 ^ 32) (hb : b < 2 ^ 32)
    (collect : Bool) (init : Memory) (res : Option (Memory × List Msg × Verdict))
    (h : ReadsVector e g X nDegs name collect ((before ++ [⟨name, data⟩, checksumMsg a b]).flatMap (recBytes m1 junk1)) init res) :
    ∃ m msgs v, res = some (m, msgs, v) ∧ ∀ r, r < g.nranks → ∀ k, g.locVol * nDegs ≤ k * 2 → k < g.locVol * nDegs → ∀ j, j < 8 →
      m r (k * 8 + j) = fixToNative e.native .big 8 e.junkReal (fun j => init r (k * 8 + j)) j := by
  obtain ⟨key, -⟩ := reads_iff e g ok X nDegs (nDegs * 4) (by omega) data hfl h8 m1 junk1 before [] [] name okd okb hne (by simp) (by simp) a b ha hb collect init
  obtain ⟨bufInit, out, ⟨oc, h3, rfl⟩, rfl⟩ := (key res).1 (by simpa using h)
  refine ⟨_, _, _, rfl, fun r hr k hk hk' j hj => ?_⟩
  have hd := (remap_deliver (nranks_pos g ok) (block_bij g ok X hX _ _ (ildg_order g.L (L_pos ok))).symm hs e.junkList e.junkElem e.packOrder he.pack _ _).2 oc h3
  show fixAll _ 8 _ _ _ = _
  rw [fixAll_at _ _ _ _ _ _ hk' hj]
  have hsame : ∀ t, g.locVol * (nDegs * 4) ≤ t → unchunk (nDegs * 4) (oc r) t = init r t := by
    intro t ht
    have hp : 0 < nDegs * 4 := by omega
    have h1 : g.locVol ≤ t / (nDegs * 4) := (Nat.le_div_iff_mul_le hp).2 ht
    unfold unchunk
    rw [hd.2 r _ hr h1]
    unfold chunk
    rw [getD_map _ _ _ (Nat.mod_lt _ hp), Nat.div_add_mod']
  have hfun : ∀ j', unchunk (nDegs * 4) (oc r) (k * 8 + j') = init r (k * 8 + j') := fun j' => hsame _ (by rw [← Nat.mul_assoc]; omega)
  exact congrFun (congrArg _ (funext hfun)) j

/-- if the length of the data is not a multiple of 8 (numbers of 4 bytes, odd volume) the position is moved after the padding and then the padding is
written: the following record does not begin at a multiple of 8 bytes, where readers search it -/
theorem C73_violated_padding (e : Env) (g : Geo) (name : List Byte) (len : Nat) (h8 : len % 8 ≠ 0) (temp : Memory) (d : Disk) (hd : ∀ rank, d.pos rank = d.bytes.length)
    (ha : d.bytes.length % 8 = 0) (hn : name.length ≤ 127) (rank : Nat) :
    (writeDataRecord e g name len temp d).pos rank = d.bytes.length + 144 + ceil8 len + (8 - len % 8) ∧
    (writeDataRecord e g name len temp d).pos rank % 8 ≠ 0 := by
  have hh : (headerBytes e.native e.junkReal (buildHeader 0 0 name len)).length = 144 := by
    unfold headerBytes
    rw [List.length_append, List.length_append, List.length_append, List.length_append, type_of name hn]
    simp [image]; omega
  have : (writeDataRecord e g name len temp d).pos rank = d.bytes.length + 144 + ceil8 len + (8 - len % 8) := by
    unfold writeDataRecord
    simp only
    rw [if_pos h8]
    simp only [masterWrite, setPosition, List.length_replicate, hh, hd]
  refine ⟨this, ?_⟩
  rw [this]
  have := diff8_spec len
  unfold ceil8
  omega

/-! ### The hypotheses hold in a non-trivial case -/

/-- a little-endian machine -/
def exEnv (g : Geo) : Env := ⟨.little, fun _ => 7#8, fun _ => 0, fun _ => [], fun _ => List.range g.locVol, fun _ n => List.range n, fun _ => 0#32,
  (List.range g.nranks).reverse, false, (1, 2)⟩

theorem exEnv_ok (g : Geo) : EnvOk (exEnv g) g :=
  ⟨fun r _ => List.Perm.refl _, fun rk n => List.Perm.refl _, fun x => Or.inr rfl, List.reverse_perm _⟩

/-- a field in the memory of the ranks -/
def exMem (native : Endianness) (sizeofT nDegs : Nat) (X : Nat → Nat → Coords) (D : Coords → Nat → Nat) : Memory := fun r k =>
  bytesOf native sizeofT (D (X r (k / sizeofT / nDegs)) (k / sizeofT % nDegs)) (k % sizeofT)

theorem exMem_ok (native : Endianness) (sizeofT nDegs : Nat) (g : Geo) (X : Nat → Nat → Coords) (D : Coords → Nat → Nat) :
    InMemory native sizeofT nDegs g X D (exMem native sizeofT nDegs X D) := by
  intro r i d b hr hi hd hb
  have h1 := join_lt hi hd
  have h2 := join_lt h1.1 hb
  unfold exMem
  rw [h2.2.1, h2.2.2, h1.2.1, h1.2.2]

/-- the configuration with different numbers everywhere, written by four ranks, read by one -/
example : ∃ d' conf', WritesConf (exEnv geoT) geoT (siteCoords geoT) [⟨[65#8], [1#8, 2#8, 3#8]⟩]
    (exMem .little 8 72 (siteCoords geoT) (fun c k => 1000 * filePlace geoT.L c + k)) d' conf' ∧
    ∃ m msgs v, ReadsConf (exEnv ⟨![8, 4, 4, 6], ![1, 1, 1, 1]⟩) ⟨![8, 4, 4, 6], ![1, 1, 1, 1]⟩ (siteCoords ⟨![8, 4, 4, 6], ![1, 1, 1, 1]⟩) true d'.bytes (fun _ _ => 9#8)
      (some (m, msgs, v)) ∧ msgs.length = 2 := by
  have ok : geoT.Ok := by decide
  have ok1 : (⟨![8, 4, 4, 6], ![1, 1, 1, 1]⟩ : Geo).Ok := by decide
  have h := C35_time_slabs geoT ok _ (siteCoords_table geoT ok) (by decide)
  have h1 := C35_time_slabs ⟨![8, 4, 4, 6], ![1, 1, 1, 1]⟩ ok1 _ (siteCoords_table _ ok1) (by decide)
  have hm := exMem_ok .little 8 72 geoT (siteCoords geoT) (fun c k => 1000 * filePlace geoT.L c + k)
  obtain ⟨⟨d', conf', hw⟩, -⟩ := C73_conf_write_partial (exEnv geoT) geoT ok (exEnv_ok _) (by decide) _ (siteCoords_table geoT ok) h.1 [⟨[65#8], [1#8, 2#8, 3#8]⟩] _ _ hm
  obtain ⟨⟨res, hr⟩, hR⟩ := C73_conf_roundtrip_partial (exEnv geoT) (exEnv ⟨![8, 4, 4, 6], ![1, 1, 1, 1]⟩) geoT ⟨![8, 4, 4, 6], ![1, 1, 1, 1]⟩ ok ok1 rfl (exEnv_ok _) (exEnv_ok _)
    (by decide) (by decide) _ _ (siteCoords_table geoT ok) (siteCoords_table _ ok1) h.1 h1.2 [⟨[65#8], [1#8, 2#8, 3#8]⟩]
    (by intro x hx; rw [List.mem_singleton.1 hx]; exact ⟨by decide, by decide, by decide⟩) (by intro x hx; rw [List.mem_singleton.1 hx]; decide +kernel) _ _ hm d' conf' hw true (fun _ _ => 9#8)
  obtain ⟨m, v, -, rfl, -⟩ := hR res hr
  exact ⟨d', conf', hw, m, _, v, hr, rfl⟩

end Nissa.FieldIo
