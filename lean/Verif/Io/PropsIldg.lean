/- C22, C23: what is written in an ILDG file is read back. -/
import Verif.Io.Ildg
import Mathlib.Data.List.GetD
import Mathlib.Data.List.TakeWhile
set_option linter.all false

namespace Nissa.Ildg
open Nissa.Endian (Byte Mem Endianness bytesOf valueOf fixToNative fixFromNative C20_value C20_bytesOf foldr_congr)

/-! ### Lemmas on headers -/

theorem valueOf_congr (e : Endianness) (n : Nat) (a b : Mem) (h : ∀ i, i < n → a i = b i) : valueOf e n a = valueOf e n b := by
  unfold valueOf
  cases e
  · exact foldr_congr (α := Unit) n _ _ (fun i hi => by rw [h i hi])
  · exact foldr_congr (α := Unit) n _ _ (fun i hi => by simp only; rw [h _ (by omega)])

theorem image_length (n : Nat) (m : Mem) : (image n m).length = n := by simp [image]

theorem fieldAt_image (pre post : List Byte) (n : Nat) (m : Mem) (i : Nat) (hi : i < n) : fieldAt (pre ++ image n m ++ post) pre.length i = m i := by
  unfold fieldAt
  rw [List.append_assoc, List.getD_append_right _ _ _ _ (by omega), Nat.add_sub_cancel_left, List.getD_append _ _ _ _ (by rw [image_length]; exact hi),
    List.getD_eq_getElem _ _ (by rw [image_length]; exact hi)]
  simp [image]

theorem read_be (m1 m2 : Endianness) (junk1 junk2 : Mem) (pre post : List Byte) (n v : Nat) (hv : v < 256 ^ n) :
    valueOf m2 n (fixToNative m2 .big n junk2 (fieldAt (pre ++ image n (fixFromNative m1 .big n junk1 (bytesOf m1 n v)) ++ post) pre.length)) = v := by
  rw [C20_value, valueOf_congr _ _ _ _ (fun i hi => fieldAt_image pre post n _ i hi)]
  have := C20_value .big m1 n junk1 (bytesOf m1 n v)
  unfold fixToNative at this
  unfold fixFromNative
  rw [this, C20_bytesOf _ _ _ hv]

/-- sizes of the fields of a header -/
structure HeaderOk (h : Header) : Prop where
  magic : h.magic < 2 ^ 32
  version : h.version < 2 ^ 16
  mbme : h.mbme < 2 ^ 16
  length : h.length < 2 ^ 64
  type : h.type.length = 128

theorem headerBytes_length (m : Endianness) (junk : Mem) (h : Header) (ok : HeaderOk h) : (headerBytes m junk h).length = 144 := by
  simp [headerBytes, image_length, ok.type]

/-- C22: a header written by a machine is read back by any other with the same magic number, version, length and type; the flags too, if
the two machines have the same endianness -/
theorem C22_header (m1 m2 : Endianness) (junk1 junk2 : Mem) (h : Header) (ok : HeaderOk h) :
    let h' := parseHeader m2 junk2 (headerBytes m1 junk1 h)
    h'.magic = h.magic ∧ h'.version = h.version ∧ h'.length = h.length ∧ h'.type = h.type ∧ (m1 = m2 → h' = h) := by
  have e1 := read_be m1 m2 junk1 junk2 [] (image 2 (fixFromNative m1 .big 2 junk1 (bytesOf m1 2 h.version)) ++
    (image 2 (bytesOf m1 2 h.mbme) ++ (image 8 (fixFromNative m1 .big 8 junk1 (bytesOf m1 8 h.length)) ++ h.type))) 4 h.magic (by have := ok.magic; omega)
  have e2 := read_be m1 m2 junk1 junk2 (image 4 (fixFromNative m1 .big 4 junk1 (bytesOf m1 4 h.magic)))
    (image 2 (bytesOf m1 2 h.mbme) ++ (image 8 (fixFromNative m1 .big 8 junk1 (bytesOf m1 8 h.length)) ++ h.type)) 2 h.version (by have := ok.version; omega)
  have e3 : m1 = m2 → valueOf m2 2 (fieldAt ((image 4 (fixFromNative m1 .big 4 junk1 (bytesOf m1 4 h.magic)) ++ image 2 (fixFromNative m1 .big 2 junk1 (bytesOf m1 2 h.version))) ++
      image 2 (bytesOf m1 2 h.mbme) ++ (image 8 (fixFromNative m1 .big 8 junk1 (bytesOf m1 8 h.length)) ++ h.type)) 6) = h.mbme := by
    intro hm
    subst hm
    have := valueOf_congr m1 2 _ _ (fun i hi => fieldAt_image (image 4 (fixFromNative m1 .big 4 junk1 (bytesOf m1 4 h.magic)) ++ image 2 (fixFromNative m1 .big 2 junk1 (bytesOf m1 2 h.version)))
      (image 8 (fixFromNative m1 .big 8 junk1 (bytesOf m1 8 h.length)) ++ h.type) 2 (bytesOf m1 2 h.mbme) i hi)
    rw [List.length_append, image_length, image_length] at this
    rw [this, C20_bytesOf _ _ _ (by have := ok.mbme; omega)]
  have e4 := read_be m1 m2 junk1 junk2 (image 4 (fixFromNative m1 .big 4 junk1 (bytesOf m1 4 h.magic)) ++ image 2 (fixFromNative m1 .big 2 junk1 (bytesOf m1 2 h.version)) ++ image 2 (bytesOf m1 2 h.mbme))
    h.type 8 h.length (by have := ok.length; omega)
  simp only [List.length_append, image_length, List.length_nil, List.nil_append, List.append_assoc] at e1 e2 e3 e4
  have ht : ((headerBytes m1 junk1 h).drop 16).take 128 = h.type := by
    unfold headerBytes
    rw [List.drop_append_of_le_length (by simp [image_length]), List.drop_of_length_le (by simp [image_length]), List.nil_append, List.take_of_length_le (by rw [ok.type])]
  have f1 : (parseHeader m2 junk2 (headerBytes m1 junk1 h)).magic = h.magic := by
    simp only [parseHeader, headerBytes, List.append_assoc]; exact e1
  have f2 : (parseHeader m2 junk2 (headerBytes m1 junk1 h)).version = h.version := by
    simp only [parseHeader, headerBytes, List.append_assoc]; exact e2
  have f4 : (parseHeader m2 junk2 (headerBytes m1 junk1 h)).length = h.length := by
    simp only [parseHeader, headerBytes, List.append_assoc]; exact e4
  have f5 : (parseHeader m2 junk2 (headerBytes m1 junk1 h)).type = h.type := ht
  refine ⟨f1, f2, f4, f5, fun hm => ?_⟩
  have f3 : (parseHeader m2 junk2 (headerBytes m1 junk1 h)).mbme = h.mbme := by
    simp only [parseHeader, headerBytes, List.append_assoc]; exact e3 hm
  revert f1 f2 f3 f4 f5
  generalize parseHeader m2 junk2 (headerBytes m1 junk1 h) = x
  intro f1 f2 f3 f4 f5
  cases x; cases h
  simp only at f1 f2 f3 f4 f5
  subst f1 f2 f3 f4 f5; rfl

/-- C22: the two flags given to the constructor of the header are those read from it -/
theorem C22_flags (mb me : Bool) (type : List Byte) (len : Nat) :
    getMB (buildHeader mb.toNat me.toNat type len) = mb ∧ getME (buildHeader mb.toNat me.toNat type len) = me := by
  constructor
  · show decide ((mb.toNat * 0x80 + me.toNat * 0x40) % 2 ^ 16 &&& 0x80 ≠ 0) = mb
    revert mb me; decide
  · show decide ((mb.toNat * 0x80 + me.toNat * 0x40) % 2 ^ 16 &&& 0x40 ≠ 0) = me
    revert mb me; decide

/-- C22, disagreement: the flags are not converted, so a machine of the other endianness does not see them -/
theorem C22_flags_violated : ∃ h : Header, HeaderOk h ∧ getMB h = true ∧ getMB (parseHeader .big (fun _ => 0) (headerBytes .little (fun _ => 0) h)) = false := by
  refine ⟨buildHeader 1 0 [] 0, ⟨by decide, by decide, by decide, by decide, by simp [buildHeader]⟩, rfl, by decide +kernel⟩

/-! ### Lemmas on files -/

theorem diff8_spec (n : Nat) : diff8 n < 8 ∧ (n + diff8 n) % 8 = 0 ∧ (n % 8 = 0 → diff8 n = 0) := by
  unfold diff8; split <;> omega

theorem seek8_of (s : Stream) (h : s.pos % 8 = 0) : seek8 s = s := by
  unfold seek8 skipBytes; rw [(diff8_spec s.pos).2.2 h, Nat.add_zero]

theorem readAll_of (pre data post : List Byte) (h : pre.length % 8 = 0) (hd : data.length % 8 = 0) :
    readAll ⟨pre ++ data ++ post, pre.length⟩ data.length = some (data, ⟨pre ++ data ++ post, pre.length + data.length⟩) := by
  unfold readAll
  rw [seek8_of _ h]
  have : ((pre ++ data ++ post).drop pre.length).take data.length = data := by
    rw [List.append_assoc, List.drop_left, List.take_left]
  simp only [this]
  rw [if_neg (by simp), seek8_of _ (by show (pre.length + data.length) % 8 = 0; omega)]
  rfl

/-- a record as it is found in the file: data followed by zeros up to a multiple of 8 bytes -/
def padded (data : List Byte) : List Byte := data ++ List.replicate (ceil8 data.length - data.length) 0#8

theorem padded_length (data : List Byte) : (padded data).length = ceil8 data.length ∧ (padded data).length % 8 = 0 := by
  have := diff8_spec data.length
  have e : (padded data).length = ceil8 data.length := by
    unfold padded ceil8; rw [List.length_append, List.length_replicate]; omega
  rw [e]
  exact ⟨rfl, this.2.1⟩

/-- bytes of a record -/
def recBytes (native : Endianness) (junk : Mem) (m : Msg) : List Byte :=
  headerBytes native junk (buildHeader 0 0 m.name (ceil8 m.data.length)) ++ padded m.data

/-- names are C strings of at most 127 characters; lengths fit in a file offset -/
structure MsgOk (m : Msg) : Prop where
  noZero : 0#8 ∉ m.name
  short : m.name.length ≤ 127
  size : m.data.length < 2 ^ 63

theorem buildHeader_ok (m : Msg) (ok : MsgOk m) : HeaderOk (buildHeader 0 0 m.name (ceil8 m.data.length)) := by
  have h1 := diff8_spec m.data.length
  have h2 := ok.size
  have h3 := ok.short
  refine ⟨(by decide : magicNo < 2 ^ 32), (by decide : 1 < 2 ^ 16), (by decide : (0 * 0x80 + 0 * 0x40) % 2 ^ 16 < 2 ^ 16), ?_, ?_⟩
  · show ceil8 m.data.length < 2 ^ 64
    unfold ceil8; omega
  · simp [buildHeader]

theorem type_of (name : List Byte) (h : name.length ≤ 127) (len : Nat) : (buildHeader 0 0 name len).type = name ++ List.replicate (128 - name.length) 0#8 := by
  simp only [buildHeader]
  rw [List.take_of_length_le h]

theorem recBytes_mod (m1 : Endianness) (junk : Mem) (m : Msg) (ok : MsgOk m) : (recBytes m1 junk m).length = 144 + (padded m.data).length := by
  unfold recBytes
  rw [List.length_append, headerBytes_length _ _ _ (buildHeader_ok m ok)]

theorem getNext_of (m1 m2 : Endianness) (junk1 junk2 : Mem) (ign : Bool) (pre post : List Byte) (m : Msg) (ok : MsgOk m) (h : pre.length % 8 = 0) :
    ∃ hd, getNextHeader m2 junk2 ign ⟨pre ++ recBytes m1 junk1 m ++ post, pre.length⟩ = some (hd, ⟨pre ++ recBytes m1 junk1 m ++ post, pre.length + 144⟩) ∧
      hd.length = ceil8 m.data.length ∧ hd.type = m.name ++ List.replicate (128 - m.name.length) 0#8 ∧ (m1 = m2 → hd = buildHeader 0 0 m.name (ceil8 m.data.length)) := by
  have hok := buildHeader_ok m ok
  have hl := headerBytes_length m1 junk1 _ hok
  obtain ⟨c1, c2, c3, c4, c5⟩ := C22_header m1 m2 junk1 junk2 _ hok
  have hr := readAll_of pre (headerBytes m1 junk1 (buildHeader 0 0 m.name (ceil8 m.data.length))) (padded m.data ++ post) h (by rw [hl])
  refine ⟨parseHeader m2 junk2 (headerBytes m1 junk1 (buildHeader 0 0 m.name (ceil8 m.data.length))), ?_, c3, ?_, c5⟩
  · unfold getNextHeader
    rw [seek8_of _ h]
    rw [hl] at hr
    have e : pre ++ recBytes m1 junk1 m ++ post = pre ++ headerBytes m1 junk1 (buildHeader 0 0 m.name (ceil8 m.data.length)) ++ (padded m.data ++ post) := by
      simp [recBytes, List.append_assoc]
    rw [e, hr, Option.bind_some]
    simp only
    rw [if_neg]
    intro hh
    exact hh.1 c1
  · rw [c4, type_of _ ok.short]

theorem strcmpEq_of (name mname : List Byte) (hn : 0#8 ∉ name) (hm : 0#8 ∉ mname) (l1 : name.length ≤ 127) (l2 : mname.length ≤ 127) :
    strcmpEq name (mname ++ List.replicate (128 - mname.length) 0#8) = some (decide (name = mname)) := by
  unfold strcmpEq
  rw [if_pos (Or.inl (by rw [List.length_append, List.length_replicate]; omega))]
  congr 1
  have hrep : List.replicate (128 - mname.length) 0#8 = [0#8] ++ List.replicate (127 - mname.length) 0#8 := by
    rw [show 128 - mname.length = (127 - mname.length) + 1 by omega, List.replicate_succ]; rfl
  rw [hrep, ← List.append_assoc]
  generalize List.replicate (127 - mname.length) 0#8 = z
  clear hrep l1 l2
  induction name generalizing mname with
  | nil =>
    cases mname with
    | nil => simp
    | cons b l =>
      have : b ≠ 0#8 := fun hb => hm (by simp [hb])
      simp [List.isPrefixOf, this.symm]
  | cons a name ih =>
    have ha : a ≠ 0#8 := fun hb => hn (by simp [hb])
    cases mname with
    | nil => simp [List.isPrefixOf, ha]
    | cons b l =>
      have := ih l (fun h => hn (by simp [h])) (fun h => hm (by simp [h]))
      simp only [List.cons_append, List.isPrefixOf, this, List.cons.injEq]
      by_cases hab : a = b <;> simp [hab]

theorem cstr_of (name : List Byte) (hn : 0#8 ∉ name) (k : Nat) (hk : 0 < k) : cstr (name ++ List.replicate k 0#8) = some name := by
  unfold cstr
  rw [if_pos (by simp; omega)]
  congr 1
  rw [List.takeWhile_append_of_pos (fun a ha => by simp; exact fun h => hn (h ▸ ha))]
  obtain ⟨k, rfl⟩ : ∃ j, k = j + 1 := ⟨k - 1, by omega⟩
  simp [List.replicate_succ]

/-- messages as they are collected by the search -/
def collected (ms : List Msg) : List Msg := ms.map (fun m => ⟨m.name, padded m.data⟩)

theorem flat_mod (m1 : Endianness) (junk1 : Mem) (ms : List Msg) (ok : ∀ m ∈ ms, MsgOk m) : (ms.flatMap (recBytes m1 junk1)).length % 8 = 0 ∧
    ms.length ≤ (ms.flatMap (recBytes m1 junk1)).length := by
  induction ms with
  | nil => exact ⟨rfl, Nat.le_refl _⟩
  | cons m l ih =>
    have := ih (fun m hm => ok m (by simp [hm]))
    have h2 := recBytes_mod m1 junk1 m (ok m (by simp))
    have h3 := padded_length m.data
    simp only [List.flatMap_cons, List.length_append, List.length_cons]
    omega

/-- the general form: records before the one searched are gone through -/
theorem searchAux_skip (m1 m2 : Endianness) (junk1 junk2 : Mem) (ign collect : Bool) (name : List Byte) (hn : 0#8 ∉ name) (hl : name.length ≤ 127)
    (before : List Msg) (ok : ∀ m ∈ before, MsgOk m) (hne : ∀ m ∈ before, m.name ≠ name) :
    ∀ (pre post : List Byte) (fuel : Nat) (hd : Option Header) (ms : List Msg), pre.length % 8 = 0 →
    ∃ hd', searchAux m2 junk2 ign name collect (fuel + before.length) ⟨pre ++ before.flatMap (recBytes m1 junk1) ++ post, pre.length⟩ hd ms =
      searchAux m2 junk2 ign name collect fuel ⟨pre ++ before.flatMap (recBytes m1 junk1) ++ post, pre.length + (before.flatMap (recBytes m1 junk1)).length⟩ hd'
        (if collect then ms ++ collected before else ms) := by
  induction before with
  | nil => intro pre post fuel hd ms h; refine ⟨hd, ?_⟩; simp [collected]
  | cons m l ih =>
    intro pre post fuel hd ms h
    have okm := ok m (by simp)
    have hrb := recBytes_mod m1 junk1 m okm
    have hpd := padded_length m.data
    obtain ⟨h', e1, e2, e3, -⟩ := getNext_of m1 m2 junk1 junk2 ign pre (l.flatMap (recBytes m1 junk1) ++ post) m okm h
    obtain ⟨hd', e4⟩ := ih (fun m hm => ok m (by simp [hm])) (fun m hm => hne m (by simp [hm])) (pre ++ recBytes m1 junk1 m) post fuel (some h')
      (if collect then ms ++ [⟨m.name, padded m.data⟩] else ms) (by rw [List.length_append]; omega)
    refine ⟨hd', ?_⟩
    have efile : pre ++ (m :: l).flatMap (recBytes m1 junk1) ++ post = pre ++ recBytes m1 junk1 m ++ (l.flatMap (recBytes m1 junk1) ++ post) := by
      simp [List.append_assoc]
    have efile2 : pre ++ recBytes m1 junk1 m ++ (l.flatMap (recBytes m1 junk1) ++ post) = pre ++ recBytes m1 junk1 m ++ l.flatMap (recBytes m1 junk1) ++ post := by
      simp [List.append_assoc]
    rw [efile]
    rw [show fuel + (m :: l).length = (fuel + l.length) + 1 by simp; omega, searchAux]
    rw [if_neg (by simp only [reachedEOF, decide_eq_true_eq, List.length_append]; omega), e1, Option.bind_some]
    simp only
    rw [e3, strcmpEq_of name m.name hn okm.noZero hl okm.short, Option.bind_some,
      if_neg (by rw [decide_eq_true_eq]; exact fun hh => hne m (by simp) hh.symm)]
    have htot : pre.length + ((m :: l).flatMap (recBytes m1 junk1)).length = (pre ++ recBytes m1 junk1 m).length + (l.flatMap (recBytes m1 junk1)).length := by
      simp [List.length_append]; omega
    cases collect with
    | false =>
      rw [if_pos rfl]
      have hs : skipRecord ⟨pre ++ recBytes m1 junk1 m ++ (l.flatMap (recBytes m1 junk1) ++ post), pre.length + 144⟩ h' =
          ⟨pre ++ recBytes m1 junk1 m ++ (l.flatMap (recBytes m1 junk1) ++ post), (pre ++ recBytes m1 junk1 m).length⟩ := by
        unfold skipRecord
        rw [seek8_of ⟨pre ++ recBytes m1 junk1 m ++ (l.flatMap (recBytes m1 junk1) ++ post), pre.length + 144⟩ (by show (pre.length + 144) % 8 = 0; omega)]
        unfold skipBytes
        rw [seek8_of _ (by show (pre.length + 144 + h'.length) % 8 = 0; omega)]
        congr 1
        show pre.length + 144 + h'.length = _
        rw [List.length_append]; omega
      rw [hs, efile2]
      simp only [Bool.false_eq_true, if_false] at e4 ⊢
      rw [e4, htot]
    | true =>
      rw [if_neg (by simp)]
      have hr := readAll_of (pre ++ headerBytes m1 junk1 (buildHeader 0 0 m.name (ceil8 m.data.length))) (padded m.data) (l.flatMap (recBytes m1 junk1) ++ post)
        (by rw [List.length_append, headerBytes_length _ _ _ (buildHeader_ok m okm)]; omega) hpd.2
      rw [List.length_append, headerBytes_length _ _ _ (buildHeader_ok m okm)] at hr
      have ef : pre ++ headerBytes m1 junk1 (buildHeader 0 0 m.name (ceil8 m.data.length)) ++ padded m.data = pre ++ recBytes m1 junk1 m := by
        simp [recBytes, List.append_assoc]
      rw [ef] at hr
      rw [e2, ← hpd.1, hr, Option.bind_some, cstr_of _ okm.noZero _ (by have := okm.short; omega), Option.bind_some]
      simp only
      simp only [if_true] at e4 ⊢
      have : pre.length + 144 + (padded m.data).length = (pre ++ recBytes m1 junk1 m).length := by
        rw [List.length_append]; omega
      rw [this, efile2, e4, htot]
      congr 1
      simp [collected]

/-- the fuel given to the search is enough for the files made of records -/
theorem fuel_enough (m1 : Endianness) (junk1 : Mem) (ms : List Msg) (ok : ∀ m ∈ ms, MsgOk m) (pre post : List Byte) :
    ∃ k, (pre ++ ms.flatMap (recBytes m1 junk1) ++ post).length + 1 = (k + 1) + ms.length := by
  have := (flat_mod m1 junk1 ms ok).2
  exact ⟨pre.length + (ms.flatMap (recBytes m1 junk1)).length + post.length - ms.length, by simp only [List.length_append]; omega⟩

/-- whatever the content of the file, the number of iterations given to the search is never exhausted: more do not change the result -/
theorem search_fuel (native : Endianness) (junk : Mem) (ign collect : Bool) (name : List Byte) (s : Stream) (n k : Nat) (hn : s.bytes.length < n + s.pos)
    (hd : Option Header) (ms : List Msg) :
    searchAux native junk ign name collect (n + 1 + k) s hd ms = searchAux native junk ign name collect (n + 1) s hd ms := by
  have hread : ∀ (s t : Stream) (n : Nat) (d : List Byte), readAll s n = some (d, t) → t.bytes = s.bytes ∧ s.pos + n ≤ t.pos := by
    intro s t n d h
    unfold readAll at h
    simp only at h
    split at h
    · cases h
    · simp only [Option.some.injEq, Prod.mk.injEq] at h
      obtain ⟨-, rfl⟩ := h
      refine ⟨rfl, ?_⟩
      simp only [seek8, skipBytes]; omega
  induction n generalizing s hd ms with
  | zero =>
    rw [show 0 + 1 + k = k + 1 by omega, searchAux, searchAux, if_pos (by simp [reachedEOF]; omega), if_pos (by simp [reachedEOF]; omega)]
  | succ n ih =>
    rw [show n + 1 + 1 + k = (n + 1 + k) + 1 by omega, searchAux, searchAux]
    by_cases hE : reachedEOF s = true
    · rw [if_pos hE, if_pos hE]
    · rw [if_neg hE, if_neg hE]
      cases hg : getNextHeader native junk ign s with
      | none => rfl
      | some r =>
        obtain ⟨h, t⟩ := r
        have ht : t.bytes = s.bytes ∧ s.pos + 144 ≤ t.pos := by
          unfold getNextHeader at hg
          rw [Option.bind_eq_some_iff] at hg
          obtain ⟨⟨d, t'⟩, h1, h2⟩ := hg
          have := hread _ _ _ _ h1
          simp only at h2
          split at h2
          · cases h2
          · simp only [Option.some.injEq, Prod.mk.injEq] at h2
            obtain ⟨-, rfl⟩ := h2
            refine ⟨this.1, ?_⟩
            have := this.2
            simp only [seek8, skipBytes] at this; omega
        simp only [Option.bind_some]
        cases hs : strcmpEq name h.type with
        | none => rfl
        | some eq =>
          simp only [Option.bind_some]
          cases eq with
          | true => rfl
          | false =>
            simp only [Bool.false_eq_true, if_false]
            cases collect with
            | false =>
              simp only [if_true]
              refine ih _ ?_ _ _
              simp only [skipRecord, seek8, skipBytes]
              rw [ht.1]; omega
            | true =>
              simp only [Bool.true_eq_false, if_false]
              cases hr : readAll t h.length with
              | none => rfl
              | some dd =>
                obtain ⟨d, t2⟩ := dd
                simp only [Option.bind_some]
                cases cstr h.type with
                | none => rfl
                | some nm =>
                  simp only [Option.bind_some]
                  have := hread _ _ _ _ hr
                  refine ih _ ?_ _ _
                  rw [this.1, ht.1]; omega

/-! ### C22 -/

/-- C22: writing any list of messages, the file gets, for each of them in order, a header and the data padded to a multiple of 8 bytes, and
all the ranks are left at the end of the file -/
theorem C22_write (native : Endianness) (junk : Mem) (d : Disk) (hd : ∀ rank, d.pos rank = d.bytes.length) (ms : List Msg) :
    (writeAllMessages native junk d ms).bytes = d.bytes ++ ms.flatMap (recBytes native junk) ∧
    ∀ rank, (writeAllMessages native junk d ms).pos rank = (writeAllMessages native junk d ms).bytes.length := by
  have hm : ∀ (d : Disk) (data : List Byte), (∀ rank, d.pos rank = d.bytes.length) → (masterWrite d data).bytes = d.bytes ++ data ∧
      ∀ rank, (masterWrite d data).pos rank = (masterWrite d data).bytes.length := by
    intro d data h
    have e : (masterWrite d data).bytes = d.bytes ++ data := by
      simp only [masterWrite, overwrite, h 0, Nat.sub_self, List.replicate_zero, List.append_nil, List.take_length]
      rw [List.drop_of_length_le (by omega), List.append_nil]
    refine ⟨e, fun rank => ?_⟩
    rw [e, List.length_append]
    simp only [masterWrite, h rank]
  induction ms generalizing d with
  | nil => exact ⟨by simp [writeAllMessages], hd⟩
  | cons m l ih =>
    obtain ⟨a1, a2⟩ := hm d (headerBytes native junk (buildHeader 0 0 m.name (ceil8 m.data.length))) hd
    obtain ⟨b1, b2⟩ := hm _ (padded m.data) a2
    have hw : writeRecord native junk d m.name m.data = masterWrite (masterWrite d (headerBytes native junk (buildHeader 0 0 m.name (ceil8 m.data.length)))) (padded m.data) := rfl
    obtain ⟨c1, c2⟩ := ih (writeRecord native junk d m.name m.data) (by rw [hw]; exact b2)
    have hcons : writeAllMessages native junk d (m :: l) = writeAllMessages native junk (writeRecord native junk d m.name m.data) l := rfl
    rw [hcons]
    refine ⟨?_, c2⟩
    rw [c1, hw, b1, a1, List.flatMap_cons, recBytes]
    simp [List.append_assoc]

/-- the search finds the record, and the position is the beginning of its data -/
theorem search_found_at (m1 m2 : Endianness) (junk1 junk2 : Mem) (ign collect : Bool) (pre post : List Byte) (hpre : pre.length % 8 = 0)
    (before : List Msg) (m : Msg) (ok : ∀ x ∈ before, MsgOk x) (okm : MsgOk m) (hne : ∀ x ∈ before, x.name ≠ m.name) :
    ∃ hd, search m2 junk2 ign m.name collect ⟨pre ++ before.flatMap (recBytes m1 junk1) ++ (recBytes m1 junk1 m ++ post), pre.length⟩ =
        some (true, some hd, if collect then collected before else [], ⟨pre ++ before.flatMap (recBytes m1 junk1) ++ (recBytes m1 junk1 m ++ post), (pre ++ before.flatMap (recBytes m1 junk1)).length + 144⟩) ∧
      hd.length = ceil8 m.data.length ∧
      readAll ⟨pre ++ before.flatMap (recBytes m1 junk1) ++ (recBytes m1 junk1 m ++ post), (pre ++ before.flatMap (recBytes m1 junk1)).length + 144⟩ hd.length = some (padded m.data, ⟨pre ++ before.flatMap (recBytes m1 junk1) ++ (recBytes m1 junk1 m ++ post),
        (pre ++ before.flatMap (recBytes m1 junk1) ++ recBytes m1 junk1 m).length⟩) := by
  obtain ⟨k, hk⟩ := fuel_enough m1 junk1 before ok pre (recBytes m1 junk1 m ++ post)
  obtain ⟨hd', e⟩ := searchAux_skip m1 m2 junk1 junk2 ign collect m.name okm.noZero okm.short before ok hne pre (recBytes m1 junk1 m ++ post) (k + 1) none [] hpre
  have hfm := (flat_mod m1 junk1 before ok).1
  have hpos : (pre ++ before.flatMap (recBytes m1 junk1)).length % 8 = 0 := by rw [List.length_append]; omega
  obtain ⟨h', e1, e2, e3, -⟩ := getNext_of m1 m2 junk1 junk2 ign (pre ++ before.flatMap (recBytes m1 junk1)) post m okm hpos
  have hrb := recBytes_mod m1 junk1 m okm
  have hpd := padded_length m.data
  have hr := readAll_of (pre ++ before.flatMap (recBytes m1 junk1) ++ headerBytes m1 junk1 (buildHeader 0 0 m.name (ceil8 m.data.length))) (padded m.data) post
    (by rw [List.length_append, headerBytes_length _ _ _ (buildHeader_ok m okm)]; omega) hpd.2
  have ef : pre ++ before.flatMap (recBytes m1 junk1) ++ headerBytes m1 junk1 (buildHeader 0 0 m.name (ceil8 m.data.length)) ++ padded m.data ++ post =
      pre ++ before.flatMap (recBytes m1 junk1) ++ (recBytes m1 junk1 m ++ post) := by
    simp [recBytes, List.append_assoc]
  rw [ef] at hr
  have ef2 : pre ++ before.flatMap (recBytes m1 junk1) ++ (recBytes m1 junk1 m ++ post) = pre ++ before.flatMap (recBytes m1 junk1) ++ recBytes m1 junk1 m ++ post := by
    simp [List.append_assoc]
  rw [← ef2] at e1
  refine ⟨h', ?_, e2, ?_⟩
  · unfold search
    simp only
    rw [hk, e, searchAux]
    rw [if_neg (by simp only [reachedEOF, decide_eq_true_eq, List.length_append]; omega)]
    rw [show pre.length + (before.flatMap (recBytes m1 junk1)).length = (pre ++ before.flatMap (recBytes m1 junk1)).length by rw [List.length_append], e1, Option.bind_some]
    simp only
    rw [e3, strcmpEq_of m.name m.name okm.noZero okm.noZero okm.short okm.short, Option.bind_some, if_pos (by simp)]
    cases collect <;> simp
  · have l1 : (pre ++ before.flatMap (recBytes m1 junk1) ++ headerBytes m1 junk1 (buildHeader 0 0 m.name (ceil8 m.data.length))).length =
        (pre ++ before.flatMap (recBytes m1 junk1)).length + 144 := by
      rw [List.length_append, headerBytes_length _ _ _ (buildHeader_ok m okm)]
    rw [l1] at hr
    rw [e2, ← hpd.1, hr]
    congr 3
    rw [List.length_append (as := pre ++ before.flatMap (recBytes m1 junk1)), hrb]; omega

/-- C22: on a file made of records, the search of a name (from the beginning of any record) gives the first record with that name, having gone
through (and, if asked, collected) all those before; the data is then read, and the position is the beginning of the following record.
Writer and reader may have different endianness. -/
theorem C22_search_found (m1 m2 : Endianness) (junk1 junk2 : Mem) (ign collect : Bool) (pre post : List Byte) (hpre : pre.length % 8 = 0)
    (before : List Msg) (m : Msg) (ok : ∀ x ∈ before, MsgOk x) (okm : MsgOk m) (hne : ∀ x ∈ before, x.name ≠ m.name) :
    ∃ hd s, search m2 junk2 ign m.name collect ⟨pre ++ before.flatMap (recBytes m1 junk1) ++ (recBytes m1 junk1 m ++ post), pre.length⟩ =
        some (true, some hd, if collect then collected before else [], s) ∧
      hd.length = ceil8 m.data.length ∧
      readAll s hd.length = some (padded m.data, ⟨pre ++ before.flatMap (recBytes m1 junk1) ++ (recBytes m1 junk1 m ++ post),
        (pre ++ before.flatMap (recBytes m1 junk1) ++ recBytes m1 junk1 m).length⟩) := by
  obtain ⟨hd, h1, h2, h3⟩ := search_found_at m1 m2 junk1 junk2 ign collect pre post hpre before m ok okm hne
  exact ⟨hd, _, h1, h2, h3⟩

/-- C22: if no record has the name searched the whole file is gone through, and the search says so -/
theorem C22_search_missing (m1 m2 : Endianness) (junk1 junk2 : Mem) (ign collect : Bool) (pre : List Byte) (hpre : pre.length % 8 = 0) (name : List Byte)
    (hn : 0#8 ∉ name) (hl : name.length ≤ 127) (recs : List Msg) (ok : ∀ x ∈ recs, MsgOk x) (hne : ∀ x ∈ recs, x.name ≠ name) :
    ∃ hd, search m2 junk2 ign name collect ⟨pre ++ recs.flatMap (recBytes m1 junk1), pre.length⟩ =
        some (false, hd, if collect then collected recs else [], ⟨pre ++ recs.flatMap (recBytes m1 junk1), (pre ++ recs.flatMap (recBytes m1 junk1)).length⟩) := by
  obtain ⟨k, hk⟩ := fuel_enough m1 junk1 recs ok pre []
  obtain ⟨hd', e⟩ := searchAux_skip m1 m2 junk1 junk2 ign collect name hn hl recs ok hne pre [] (k + 1) none [] hpre
  rw [List.append_nil] at hk e
  refine ⟨hd', ?_⟩
  unfold search
  simp only
  rw [hk, e, searchAux, if_pos (by simp [reachedEOF])]
  rw [List.length_append]
  cases collect <;> simp

/-- the length given to the writer is not kept: a text of 5 bytes is read as 8 bytes. Only what follows is lost: nothing of the data -/
theorem C22_padding (data : List Byte) : (padded data).take data.length = data ∧ (∀ b ∈ (padded data).drop data.length, b = 0#8) ∧
    data.length ≤ (padded data).length ∧ (padded data).length < data.length + 8 := by
  have h := (padded_length data).1
  have := diff8_spec data.length
  unfold ceil8 at h
  refine ⟨List.take_left .., fun b hb => ?_, by omega, by omega⟩
  have : (padded data).drop data.length = List.replicate (ceil8 data.length - data.length) 0#8 := List.drop_left ..
  rw [this] at hb
  exact (List.mem_replicate.1 hb).2

/-! ### C23 -/

open Nissa.Text in
theorem strstr_skip_fixed (pat pre s : Str) (h : ∀ k, k < pre.length → pat.isPrefixOf (pre.drop k) = false ∧ (pre.drop k).isPrefixOf pat = false) :
    strstr pat (pre ++ s) = strstr pat s := by
  refine strstr_skip pat pre s (fun k hk => ?_)
  rw [List.drop_append_of_le_length (by omega)]
  have key : ∀ (pat a : Str), pat.isPrefixOf a = false → a.isPrefixOf pat = false → pat.isPrefixOf (a ++ s) = false := by
    intro pat
    induction pat with
    | nil => intro a h1 h2; simp at h1
    | cons c l ih =>
      intro a h1 h2
      cases a with
      | nil => simp at h2
      | cons x y =>
        simp only [List.isPrefixOf, Bool.and_eq_false_iff, beq_eq_false_iff_ne] at h1 h2
        simp only [List.cons_append, List.isPrefixOf, Bool.and_eq_false_iff, beq_eq_false_iff_ne]
        by_cases hx : c = x
        · right
          exact ih y (h1.resolve_left (not_not.2 hx)) (h2.resolve_left (not_not.2 hx.symm))
        · exact Or.inl hx
  exact key _ _ (h k hk).1 (h k hk).2

open Nissa.Text in
theorem strstr_skip_head (c : Nat) (pat pre s : Str) (h : ∀ x ∈ pre, x ≠ c) : strstr (c :: pat) (pre ++ s) = strstr (c :: pat) s := by
  refine strstr_skip _ pre s (fun k hk => ?_)
  rw [List.drop_append_of_le_length (by omega), List.drop_eq_getElem_cons hk]
  simp only [List.cons_append, List.isPrefixOf, Bool.and_eq_false_iff, beq_eq_false_iff_ne]
  exact Or.inl (Ne.symm (h _ (List.getElem_mem hk)))

theorem printHex_chars (n : Nat) : ∀ c ∈ Nissa.Text.printHex010 n, (48 ≤ c ∧ c ≤ 57) ∨ (97 ≤ c ∧ c ≤ 122) := by
  have h : ∀ c ∈ Nissa.Text.print 14 n, (48 ≤ c ∧ c ≤ 57) ∨ (97 ≤ c ∧ c ≤ 122) := by
    intro c hc
    rw [Nissa.Text.print_eq, List.mem_map] at hc
    obtain ⟨d, hd, rfl⟩ := hc
    have := Nissa.Text.digitCode_range (show d < 16 by have := Nissa.Text.digits_lt 14 n d hd; omega)
    omega
  have hp : ∀ w, ∀ c ∈ Nissa.Text.padZero w (Nissa.Text.print 14 n), (48 ≤ c ∧ c ≤ 57) ∨ (97 ≤ c ∧ c ≤ 122) := by
    intro w c hc
    rcases List.mem_append.1 hc with h' | h'
    · rw [(List.mem_replicate.1 h').2]; omega
    · exact h c h'
  intro c hc
  unfold Nissa.Text.printHex010 at hc
  split at hc
  · exact hp _ c hc
  · rcases List.mem_cons.1 hc with h' | h'
    · omega
    · rcases List.mem_cons.1 h' with h' | h'
      · omega
      · exact hp _ c h'

theorem printHex_length (n : Nat) (hn : n < 2 ^ 32) : (Nissa.Text.printHex010 n).length = 10 := by
  have : (Nissa.Text.print 14 n).length ≤ 8 := by
    rw [Nissa.Text.print_eq, List.length_map]
    exact Nissa.Text.digits_length 14 n 8 (by omega) hn
  unfold Nissa.Text.printHex010 Nissa.Text.padZero
  split <;> simp <;> omega

/-- C23: the text of the checksums gives back the two words -/
theorem C23_text (a b : Nat) (ha : a < 2 ^ 32) (hb : b < 2 ^ 32) : parseChecksum (checksumText a b) = (a, b) := by
  have hlt : ∀ n, ∀ x ∈ Nissa.Text.printHex010 n, x ≠ 60 := fun n x hx => by have := printHex_chars n x hx; omega
  have s1 : Nissa.Text.strstr (lit "<suma>") (checksumText a b) = some (lit "<suma>" ++ (Nissa.Text.printHex010 a ++ (lit "</suma>" ++ (lit "<sumb>" ++ (Nissa.Text.printHex010 b ++ lit "</sumb></scidacChecksum>"))))) := by
    unfold checksumText
    rw [strstr_skip_fixed _ _ _ (by decide +kernel), Nissa.Text.strstr_here _ _ (by decide)]
  have s2 : Nissa.Text.strstr (lit "<sumb>") (checksumText a b) = some (lit "<sumb>" ++ (Nissa.Text.printHex010 b ++ lit "</sumb></scidacChecksum>")) := by
    unfold checksumText
    rw [strstr_skip_fixed _ _ _ (by decide +kernel), strstr_skip_fixed _ _ _ (by decide +kernel)]
    rw [show lit "<sumb>" = 60 :: lit "sumb>" from rfl, strstr_skip_head 60 _ _ _ (hlt a), ← show lit "<sumb>" = 60 :: lit "sumb>" from rfl,
      strstr_skip_fixed _ _ _ (by decide +kernel), Nissa.Text.strstr_here _ _ (by decide)]
  have d1 : ∀ t, (lit "<suma>" ++ t).drop 6 = t := fun t => rfl
  have d2 : ∀ t, (lit "<sumb>" ++ t).drop 6 = t := fun t => rfl
  have c1 : ∀ c t, lit "</suma>" ++ (lit "<sumb>" ++ (Nissa.Text.printHex010 b ++ lit "</sumb></scidacChecksum>")) = c :: t → Nissa.Text.codeDigit c = none := by
    intro c t h
    have : c = 60 := (List.cons.inj h).1.symm
    rw [this]; rfl
  have c2 : ∀ c t, lit "</sumb></scidacChecksum>" = c :: t → Nissa.Text.codeDigit c = none := by
    intro c t h
    have : c = 60 := (List.cons.inj h).1.symm
    rw [this]; rfl
  unfold parseChecksum
  rw [s1, s2]
  simp only
  rw [d1, d2, Nissa.Text.scanHex_printHex a ha _ c1, Nissa.Text.scanHex_printHex b hb _ c2]

theorem checksumText_chars (a b : Nat) : ∀ c ∈ checksumText a b, 0 < c ∧ c < 128 := by
  have hh : ∀ n, ∀ c ∈ Nissa.Text.printHex010 n, 0 < c ∧ c < 128 := fun n c hc => by have := printHex_chars n c hc; omega
  intro c hc
  unfold checksumText at hc
  simp only [List.mem_append] at hc
  rcases hc with h | h | h | h | h | h | h
  · revert c; decide +kernel
  · revert c; decide +kernel
  · exact hh _ _ h
  · revert c; decide +kernel
  · revert c; decide +kernel
  · exact hh _ _ h
  · revert c; decide +kernel

/-- C23: the text, with its final zero, fits in the buffer of 1024 characters -/
theorem C23_buffer (a b : Nat) (ha : a < 2 ^ 32) (hb : b < 2 ^ 32) : (checksumText a b).length + 1 ≤ 1024 := by
  unfold checksumText
  simp only [List.length_append, printHex_length a ha, printHex_length b hb]
  decide +kernel

theorem ofBytes_toBytes (t : Nissa.Text.Str) (h : ∀ c ∈ t, 0 < c ∧ c < 128) : ofBytes (toBytes t) = t ∧ 0#8 ∉ toBytes t := by
  constructor
  · unfold ofBytes toBytes
    rw [List.map_map]
    conv_rhs => rw [← List.map_id t]
    refine List.map_congr_left (fun c hc => ?_)
    have := h c hc
    simp only [Function.comp_apply, BitVec.toNat_ofNat, id]
    exact Nat.mod_eq_of_lt (by omega)
  · intro hm
    obtain ⟨c, hc, e⟩ := List.mem_map.1 hm
    have := h c hc
    have e := congrArg BitVec.toNat e
    rw [BitVec.toNat_ofNat] at e
    have : c % 2 ^ 8 = c := Nat.mod_eq_of_lt (by omega)
    rw [this] at e
    simp at e; omega

/-- the message with the checksums -/
def checksumMsg (a b : Nat) : Msg := ⟨toBytes (lit "scidac-checksum"), toBytes (checksumText a b) ++ [0#8]⟩

theorem checksumMsg_ok (a b : Nat) (ha : a < 2 ^ 32) (hb : b < 2 ^ 32) : MsgOk (checksumMsg a b) := by
  refine ⟨(by decide +kernel : 0#8 ∉ toBytes (lit "scidac-checksum")), (by decide +kernel : (toBytes (lit "scidac-checksum")).length ≤ 127), ?_⟩
  have := C23_buffer a b ha hb
  show (toBytes (checksumText a b) ++ [0#8]).length < 2 ^ 63
  simp only [toBytes, List.length_append, List.length_map, List.length_cons, List.length_nil]
  omega

/-- C23: writing the checksum is writing a record -/
theorem C23_write (native : Endianness) (junk : Mem) (d : Disk) (a b : Nat) :
    writeChecksum native junk d a b = writeAllMessages native junk d [checksumMsg a b] := rfl

/-- C23: the checksums written in a file, after any other records and followed by whatever, are read back by any machine starting from the
beginning of any record -/
theorem C23_read (m1 m2 : Endianness) (junk1 junk2 : Mem) (ign : Bool) (pre post : List Byte) (hpre : pre.length % 8 = 0) (before : List Msg)
    (ok : ∀ x ∈ before, MsgOk x) (hne : ∀ x ∈ before, x.name ≠ toBytes (lit "scidac-checksum")) (a b : Nat) (ha : a < 2 ^ 32) (hb : b < 2 ^ 32) :
    ∃ s, readChecksum m2 junk2 ign ⟨pre ++ before.flatMap (recBytes m1 junk1) ++ (recBytes m1 junk1 (checksumMsg a b) ++ post), pre.length⟩ = some (some (a, b), s) := by
  have okm := checksumMsg_ok a b ha hb
  obtain ⟨hd, s, e1, e2, e3⟩ := C22_search_found m1 m2 junk1 junk2 ign false pre post hpre before (checksumMsg a b) ok okm hne
  unfold readChecksum
  rw [show (checksumMsg a b).name = toBytes (lit "scidac-checksum") from rfl] at e1
  rw [e1, Option.bind_some]
  simp only
  rw [e3, Option.bind_some]
  simp only
  obtain ⟨t1, t2⟩ := ofBytes_toBytes _ (checksumText_chars a b)
  have : padded (checksumMsg a b).data ++ [0#8] = toBytes (checksumText a b) ++ List.replicate (1 + (ceil8 (checksumMsg a b).data.length - (checksumMsg a b).data.length) + 1) 0#8 := by
    have : (checksumMsg a b).data = toBytes (checksumText a b) ++ [0#8] := rfl
    unfold padded
    rw [List.replicate_add, List.replicate_add, this]
    simp [List.append_assoc]
  rw [this, cstr_of _ t2 _ (by omega), Option.bind_some, t1, C23_text a b ha hb]
  exact ⟨_, rfl⟩

/-- C23: without such a record what is returned is uninitialised (the caller only recognises two zeros as "not found") -/
theorem C23_missing (m1 m2 : Endianness) (junk1 junk2 : Mem) (ign : Bool) (pre : List Byte) (hpre : pre.length % 8 = 0) (recs : List Msg)
    (ok : ∀ x ∈ recs, MsgOk x) (hne : ∀ x ∈ recs, x.name ≠ toBytes (lit "scidac-checksum")) :
    ∃ s, readChecksum m2 junk2 ign ⟨pre ++ recs.flatMap (recBytes m1 junk1), pre.length⟩ = some (none, s) := by
  obtain ⟨hd, e⟩ := C22_search_missing m1 m2 junk1 junk2 ign false pre hpre (toBytes (lit "scidac-checksum")) (by decide +kernel) (by decide +kernel) recs ok hne
  unfold readChecksum
  rw [e, Option.bind_some]
  exact ⟨_, rfl⟩

example : parseChecksum (checksumText 0xdeadbeef 0) = (0xdeadbeef, 0) := by decide +kernel

example : MsgOk ⟨toBytes (lit "ildg-format"), toBytes (lit "<xml>")⟩ := ⟨by decide, by decide, by decide⟩

end Nissa.Ildg
