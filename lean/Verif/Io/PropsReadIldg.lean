/- C94: the program read_ildg gives each record its file. -/
import Verif.Io.ReadIldg
import Verif.Io.PropsIldg
import Mathlib.Data.Nat.Digits.Lemmas
set_option linter.all false

namespace Nissa.ReadIldg
open Nissa.Endian (Byte Mem Endianness)
open Nissa.Ildg

/-! ### Specification -/

/-- A record of a file: name, data, flags, bytes up to a multiple of eight. -/
structure Rec where
  name : List Byte
  data : List Byte
  mb : Bool
  me : Bool
  pad : List Byte

/-- Names are C strings of at most 127 characters, lengths fit in a file offset. -/
structure Rec.Ok (r : Rec) : Prop where
  noZero : 0#8 ∉ r.name
  short : r.name.length ≤ 127
  size : r.data.length < 2 ^ 63
  pad : r.pad.length < 8 ∧ (r.data.length + r.pad.length) % 8 = 0

/-- The bytes of a record, written by a machine. -/
def Rec.bytes (m : Endianness) (junk : Mem) (r : Rec) : List Byte :=
  headerBytes m junk (buildHeader r.mb.toNat r.me.toNat r.name r.data.length) ++ r.data ++ r.pad

/-- Name of the file of the record of index `i`, counting from 0. -/
def fileOf (pat : List Byte) (i : Nat) (r : Rec) : List Byte := pat ++ str "_rec_" ++ dec i ++ str "_" ++ r.name

/-- The text for a record. -/
def textOf (maxLength : Nat) (withData : Bool) (r : Rec) : List Byte :=
  str "Found record: " ++ r.name ++ str ", length: " ++ dec r.data.length ++ str "\n" ++
    (if r.data.length < maxLength then (if withData then r.data.takeWhile (· ≠ 0#8) ++ str "\n\n" else [])
     else str "skipping the record\n")

/-! ### Proofs -/

theorem dec_no_underscore (n : Nat) : 95#8 ∉ dec n := by
  unfold dec
  split
  · decide
  · intro h
    rw [List.mem_map] at h
    obtain ⟨d, hd, h⟩ := h
    have := Nat.digits_lt_base (by norm_num : 1 < 10) (List.mem_reverse.1 hd)
    have h2 := congrArg BitVec.toNat h
    rw [BitVec.toNat_ofNat, Nat.mod_eq_of_lt (by omega)] at h2
    have : (95#8 : Byte).toNat = 95 := rfl
    omega

/-- reading back of the decimals -/
def undec (l : List Byte) : Nat := Nat.ofDigits 10 ((l.map (fun b => b.toNat - 48)).reverse)

theorem undec_dec (n : Nat) : undec (dec n) = n := by
  unfold dec undec
  split
  · rename_i h; subst h; decide
  · rw [List.map_map, ← List.map_reverse, List.reverse_reverse]
    have : (Nat.digits 10 n).map ((fun b : Byte => b.toNat - 48) ∘ fun d => BitVec.ofNat 8 (48 + d)) = Nat.digits 10 n := by
      conv_rhs => rw [← List.map_id (Nat.digits 10 n)]
      apply List.map_congr_left
      intro d hd
      have := Nat.digits_lt_base (by norm_num : 1 < 10) hd
      simp only [Function.comp_apply, BitVec.toNat_ofNat, id]
      rw [Nat.mod_eq_of_lt (by omega)]; omega
    rw [this, Nat.ofDigits_digits]

theorem takeWhile_us (a b : List Byte) (h : 95#8 ∉ a) : (a ++ 95#8 :: b).takeWhile (· ≠ 95#8) = a := by
  rw [List.takeWhile_append_of_pos (fun x hx => by simp; exact fun e => h (e ▸ hx))]
  simp

theorem fileOf_inj (pat : List Byte) (i j : Nat) (r r' : Rec) (h : fileOf pat i r = fileOf pat j r') : i = j := by
  unfold fileOf at h
  have hs : str "_" = [95#8] := by decide
  rw [hs] at h
  simp only [List.append_assoc, List.append_cancel_left_eq, List.singleton_append] at h
  have := congrArg (List.takeWhile (· ≠ 95#8)) h
  rw [takeWhile_us _ _ (dec_no_underscore i), takeWhile_us _ _ (dec_no_underscore j)] at this
  rw [← undec_dec i, this, undec_dec]

theorem dec_length (n : Nat) (h : n < 10 ^ 10) : (dec n).length ≤ 10 := by
  unfold dec
  split
  · simp
  · rw [List.length_map, List.length_reverse]
    exact (Nat.digits_length_le_iff (by norm_num) n).2 h

theorem outName_eq (pat : List Byte) (i : Nat) (r : Rec) (ok : r.Ok) (hp : pat.length ≤ 880) (hi : i < 10 ^ 10) :
    outName pat i r.name = fileOf pat i r := by
  unfold outName fileOf
  apply List.take_of_length_le
  have h1 := dec_length i hi
  have h2 := ok.short
  have h3 : (str "_rec_").length = 5 := by decide
  have h4 : (str "_").length = 1 := by decide
  simp only [List.length_append, h3, h4]
  omega

theorem header_ok (r : Rec) (ok : r.Ok) : HeaderOk (buildHeader r.mb.toNat r.me.toNat r.name r.data.length) := by
  have h2 := ok.size
  refine ⟨(by decide : magicNo < 2 ^ 32), (by decide : 1 < 2 ^ 16), ?_, ?_, ?_⟩
  · exact Nat.mod_lt _ (by norm_num)
  · show r.data.length < 2 ^ 64
    omega
  · have := ok.short
    simp [buildHeader]

theorem diff_pad (r : Rec) (ok : r.Ok) : diff8 r.data.length = r.pad.length := by
  have h1 := diff8_spec r.data.length
  have h2 := ok.pad
  omega

theorem bytes_length (m : Endianness) (junk : Mem) (r : Rec) (ok : r.Ok) :
    (r.bytes m junk).length = 144 + (r.data.length + r.pad.length) := by
  unfold Rec.bytes
  rw [List.length_append, List.length_append, headerBytes_length _ _ _ (header_ok r ok), Nat.add_assoc]

/-- The header of a record, whatever follows. -/
theorem header_of (m1 m2 : Endianness) (junk1 junk2 : Mem) (ign : Bool) (pre post : List Byte) (r : Rec) (ok : r.Ok) (h : pre.length % 8 = 0) :
    ∃ hd, getNextHeader m2 junk2 ign ⟨pre ++ headerBytes m1 junk1 (buildHeader r.mb.toNat r.me.toNat r.name r.data.length) ++ post, pre.length⟩ =
        some (hd, ⟨pre ++ headerBytes m1 junk1 (buildHeader r.mb.toNat r.me.toNat r.name r.data.length) ++ post, pre.length + 144⟩) ∧
      hd.length = r.data.length ∧ cstr hd.type = some r.name := by
  have hok := header_ok r ok
  have hl := headerBytes_length m1 junk1 _ hok
  obtain ⟨c1, c2, c3, c4, c5⟩ := C22_header m1 m2 junk1 junk2 _ hok
  have hr := readAll_of pre (headerBytes m1 junk1 (buildHeader r.mb.toNat r.me.toNat r.name r.data.length)) post h (by rw [hl])
  refine ⟨parseHeader m2 junk2 (headerBytes m1 junk1 (buildHeader r.mb.toNat r.me.toNat r.name r.data.length)), ?_, c3, ?_⟩
  · unfold getNextHeader
    rw [seek8_of _ h]
    rw [hl] at hr
    rw [hr, Option.bind_some]
    simp only
    rw [if_neg]
    intro hh
    exact hh.1 c1
  · rw [c4]
    have : (buildHeader r.mb.toNat r.me.toNat r.name r.data.length).type = r.name ++ List.replicate (128 - r.name.length) 0#8 := by
      simp only [buildHeader]
      rw [List.take_of_length_le ok.short]
    rw [this]
    exact cstr_of _ ok.noZero _ (by have := ok.short; omega)

theorem read_of (pre data pad post : List Byte) (h : pre.length % 8 = 0) (hp : diff8 data.length = pad.length) :
    readAll ⟨pre ++ data ++ pad ++ post, pre.length⟩ data.length =
      some (data, ⟨pre ++ data ++ pad ++ post, pre.length + (data.length + pad.length)⟩) := by
  unfold readAll
  rw [seek8_of _ h]
  have : ((pre ++ data ++ pad ++ post).drop pre.length).take data.length = data := by
    rw [List.append_assoc, List.append_assoc, List.drop_left, List.take_left]
  simp only [this]
  rw [if_neg (by simp)]
  have h3 := diff8_spec data.length
  have h4 := diff8_spec (pre.length + data.length)
  have : diff8 (pre.length + data.length) = pad.length := by omega
  simp only [seek8, skipBytes, this, Nat.add_assoc]

theorem skip_of (b : List Byte) (p : Nat) (hd : Header) (pad : List Byte) (h : p % 8 = 0) (hp : diff8 hd.length = pad.length) :
    skipRecord ⟨b, p⟩ hd = ⟨b, p + (hd.length + pad.length)⟩ := by
  unfold skipRecord
  rw [seek8_of ⟨b, p⟩ h]
  have h3 := diff8_spec hd.length
  have h4 := diff8_spec (p + hd.length)
  have : diff8 (p + hd.length) = pad.length := by omega
  simp only [seek8, skipBytes, this, Nat.add_assoc]

/-- What is seen after a record. -/
def after (maxLength : Nat) (pat : Option (List Byte)) (i : Nat) (r : Rec) (s : Sys) : Sys :=
  ⟨s.text ++ textOf maxLength pat.isNone r,
   match pat with
   | none => s.files
   | some p => fun g => if r.data.length < maxLength ∧ g = outName p i r.name then some r.data else s.files g⟩

theorem one (m1 m2 : Endianness) (junk1 junk2 : Mem) (ign : Bool) (canOpen : List Byte → Bool) (maxLength : Nat) (pat : Option (List Byte))
    (pre post : List Byte) (r : Rec) (ok : r.Ok) (h : pre.length % 8 = 0) (fuel i : Nat) (s : Sys)
    (hopen : ∀ p, pat = some p → r.data.length < maxLength → canOpen (outName p i r.name) = true) :
    loop m2 junk2 ign canOpen maxLength pat (fuel + 1) i ⟨pre ++ r.bytes m1 junk1 ++ post, pre.length⟩ s =
      loop m2 junk2 ign canOpen maxLength pat fuel (i + 1) ⟨pre ++ r.bytes m1 junk1 ++ post, (pre ++ r.bytes m1 junk1).length⟩
        (after maxLength pat i r s) := by
  have hb := bytes_length m1 junk1 r ok
  have hl := headerBytes_length m1 junk1 _ (header_ok r ok)
  have hpad := diff_pad r ok
  obtain ⟨hd, e1, e2, e3⟩ := header_of m1 m2 junk1 junk2 ign pre (r.data ++ r.pad ++ post) r ok h
  have ef : pre ++ headerBytes m1 junk1 (buildHeader r.mb.toNat r.me.toNat r.name r.data.length) ++ (r.data ++ r.pad ++ post) =
      pre ++ r.bytes m1 junk1 ++ post := by simp [Rec.bytes, List.append_assoc]
  have ef2 : pre ++ headerBytes m1 junk1 (buildHeader r.mb.toNat r.me.toNat r.name r.data.length) ++ r.data ++ r.pad ++ post =
      pre ++ r.bytes m1 junk1 ++ post := by simp [Rec.bytes, List.append_assoc]
  rw [ef] at e1
  have hr := read_of (pre ++ headerBytes m1 junk1 (buildHeader r.mb.toNat r.me.toNat r.name r.data.length)) r.data r.pad post
    (by rw [List.length_append, hl]; omega) hpad
  rw [ef2, List.length_append, hl] at hr
  have hs := skip_of (pre ++ r.bytes m1 junk1 ++ post) (pre.length + 144) hd r.pad (by omega) (by rw [e2]; exact hpad)
  have hpos : (pre ++ r.bytes m1 junk1).length = pre.length + 144 + (r.data.length + r.pad.length) := by
    rw [List.length_append, hb]; omega
  rw [loop, if_neg (by simp only [reachedEOF, decide_eq_true_eq, List.length_append]; omega), e1, Option.bind_some]
  try simp only
  rw [e3, Option.bind_some, hpos]
  try simp only
  by_cases hm : r.data.length < maxLength
  · rw [e2, if_pos hm, hr, Option.bind_some]
    simp only
    cases pat with
    | none =>
      simp only [Option.bind_some, after, textOf, if_pos hm, Option.isNone_none, if_true, List.append_assoc]
    | some p =>
      have := hopen p rfl hm
      simp only [put, this, if_true, Option.bind_some, after, textOf, if_pos hm, Option.isNone_some, Bool.false_eq_true, if_false,
        List.append_nil, List.append_assoc, hm, true_and]
  · rw [e2, if_neg hm, hs, e2]
    cases pat with
    | none => simp only [after, textOf, if_neg hm, List.append_assoc]
    | some p => simp only [after, textOf, if_neg hm, List.append_assoc, hm, false_and, if_false]

/-- What is seen after some records. -/
def afterAll (maxLength : Nat) (pat : Option (List Byte)) : Nat → List Rec → Sys → Sys
  | _, [], s => s
  | i, r :: rs, s => afterAll maxLength pat (i + 1) rs (after maxLength pat i r s)

theorem many (m1 m2 : Endianness) (junk1 junk2 : Mem) (ign : Bool) (canOpen : List Byte → Bool) (maxLength : Nat) (pat : Option (List Byte))
    (rs : List Rec) (ok : ∀ r ∈ rs, r.Ok) : ∀ (pre post : List Byte) (fuel i : Nat) (s : Sys), pre.length % 8 = 0 →
    (∀ (k : Nat) (r : Rec) p, rs[k]? = some r → pat = some p → r.data.length < maxLength → canOpen (outName p (i + k) r.name) = true) →
    loop m2 junk2 ign canOpen maxLength pat (fuel + rs.length) i ⟨pre ++ rs.flatMap (Rec.bytes m1 junk1) ++ post, pre.length⟩ s =
      loop m2 junk2 ign canOpen maxLength pat fuel (i + rs.length)
        ⟨pre ++ rs.flatMap (Rec.bytes m1 junk1) ++ post, (pre ++ rs.flatMap (Rec.bytes m1 junk1)).length⟩ (afterAll maxLength pat i rs s) := by
  induction rs with
  | nil => intro pre post fuel i s h _; simp [afterAll]
  | cons r rs ih =>
    intro pre post fuel i s h hopen
    have hb := bytes_length m1 junk1 r (ok r (by simp))
    have hp := (ok r (by simp)).pad
    have e := one m1 m2 junk1 junk2 ign canOpen maxLength pat pre (rs.flatMap (Rec.bytes m1 junk1) ++ post) r (ok r (by simp)) h (fuel + rs.length) i s
      (fun p hp hm => by have := hopen 0 r p (by simp) hp hm; simpa using this)
    have e' := ih (fun r hr => ok r (by simp [hr])) (pre ++ r.bytes m1 junk1) post fuel (i + 1) (after maxLength pat i r s)
      (by rw [List.length_append, hb]; omega)
      (fun k r' p hk hp hm => by have := hopen (k + 1) r' p (by simpa using hk) hp hm; rwa [Nat.add_assoc, Nat.add_comm 1 k])
    have ef : pre ++ (r :: rs).flatMap (Rec.bytes m1 junk1) ++ post = pre ++ r.bytes m1 junk1 ++ (rs.flatMap (Rec.bytes m1 junk1) ++ post) := by
      simp [List.append_assoc]
    have ef2 : pre ++ r.bytes m1 junk1 ++ rs.flatMap (Rec.bytes m1 junk1) ++ post = pre ++ r.bytes m1 junk1 ++ (rs.flatMap (Rec.bytes m1 junk1) ++ post) := by
      simp [List.append_assoc]
    have ef3 : pre ++ (r :: rs).flatMap (Rec.bytes m1 junk1) = pre ++ r.bytes m1 junk1 ++ rs.flatMap (Rec.bytes m1 junk1) := by
      simp [List.append_assoc]
    rw [ef2] at e'
    rw [ef, ef3, List.length_cons, show fuel + (rs.length + 1) = fuel + rs.length + 1 by omega, e, e', afterAll,
      show i + (rs.length + 1) = i + 1 + rs.length by omega]

theorem flat (m1 : Endianness) (junk1 : Mem) (rs : List Rec) (ok : ∀ r ∈ rs, r.Ok) :
    rs.length ≤ (rs.flatMap (Rec.bytes m1 junk1)).length ∧ (rs.flatMap (Rec.bytes m1 junk1)).length % 8 = 0 := by
  induction rs with
  | nil => simp
  | cons r rs ih =>
    have := ih (fun r hr => ok r (by simp [hr]))
    have h := bytes_length m1 junk1 r (ok r (by simp))
    have hp := (ok r (by simp)).pad
    simp only [List.flatMap_cons, List.length_append, List.length_cons]
    omega

theorem dump_eq (m1 m2 : Endianness) (junk1 junk2 : Mem) (ign : Bool) (canOpen : List Byte → Bool) (maxLength : Nat) (pat : Option (List Byte))
    (files : List Byte → Option (List Byte)) (rs : List Rec) (ok : ∀ r ∈ rs, r.Ok) (post : List Byte)
    (hopen : ∀ (k : Nat) (r : Rec) p, rs[k]? = some r → pat = some p → r.data.length < maxLength → canOpen (outName p k r.name) = true) :
    ∃ fuel, fuel = post.length + ((rs.flatMap (Rec.bytes m1 junk1)).length - rs.length) ∧
    dump m2 junk2 ign canOpen maxLength pat files (rs.flatMap (Rec.bytes m1 junk1) ++ post) =
      loop m2 junk2 ign canOpen maxLength pat (fuel + 1) rs.length
        ⟨rs.flatMap (Rec.bytes m1 junk1) ++ post, (rs.flatMap (Rec.bytes m1 junk1)).length⟩ (afterAll maxLength pat 0 rs ⟨[], files⟩) := by
  refine ⟨_, rfl, ?_⟩
  have hf := (flat m1 junk1 rs ok).1
  have e := many m1 m2 junk1 junk2 ign canOpen maxLength pat rs ok [] post
    (post.length + ((rs.flatMap (Rec.bytes m1 junk1)).length - rs.length) + 1) 0 ⟨[], files⟩ rfl
    (fun k r p hk hp hm => by rw [Nat.zero_add]; exact hopen k r p hk hp hm)
  unfold dump
  rw [show (rs.flatMap (Rec.bytes m1 junk1) ++ post).length + 1 =
    post.length + ((rs.flatMap (Rec.bytes m1 junk1)).length - rs.length) + 1 + rs.length by rw [List.length_append]; omega]
  simpa using e

theorem dump_all (m1 m2 : Endianness) (junk1 junk2 : Mem) (ign : Bool) (canOpen : List Byte → Bool) (maxLength : Nat) (pat : Option (List Byte))
    (files : List Byte → Option (List Byte)) (rs : List Rec) (ok : ∀ r ∈ rs, r.Ok)
    (hopen : ∀ (k : Nat) (r : Rec) p, rs[k]? = some r → pat = some p → r.data.length < maxLength → canOpen (outName p k r.name) = true) :
    dump m2 junk2 ign canOpen maxLength pat files (rs.flatMap (Rec.bytes m1 junk1)) = some (afterAll maxLength pat 0 rs ⟨[], files⟩) := by
  obtain ⟨fuel, -, e⟩ := dump_eq m1 m2 junk1 junk2 ign canOpen maxLength pat files rs ok [] hopen
  rw [List.append_nil] at e
  rw [e, loop, if_pos (by simp [reachedEOF])]

theorem afterAll_text (maxLength : Nat) (pat : Option (List Byte)) (rs : List Rec) : ∀ (i : Nat) (s : Sys),
    (afterAll maxLength pat i rs s).text = s.text ++ rs.flatMap (textOf maxLength pat.isNone) := by
  induction rs with
  | nil => intro i s; simp [afterAll]
  | cons r rs ih => intro i s; rw [afterAll, ih]; simp [after, List.append_assoc]

theorem afterAll_files_none (maxLength : Nat) (rs : List Rec) : ∀ (i : Nat) (s : Sys), (afterAll maxLength none i rs s).files = s.files := by
  induction rs with
  | nil => intro i s; rfl
  | cons r rs ih => intro i s; rw [afterAll, ih]; rfl

theorem afterAll_files (maxLength : Nat) (p : List Byte) (rs : List Rec) (f : List Byte) : ∀ (i : Nat) (s : Sys),
    (∀ (k : Nat) (r : Rec), rs[k]? = some r → r.data.length < maxLength → outName p (i + k) r.name ≠ f) →
    (afterAll maxLength (some p) i rs s).files f = s.files f := by
  induction rs with
  | nil => intro i s _; rfl
  | cons r rs ih =>
    intro i s h
    rw [afterAll, ih (i + 1) _ (fun k r' hk hm => by
      have := h (k + 1) r' (by simpa using hk) hm
      rwa [show i + 1 + k = i + (k + 1) by omega])]
    simp only [after]
    rw [if_neg]
    rintro ⟨h1, h2⟩
    exact h 0 r (by simp) h1 (by simpa using h2.symm)

theorem afterAll_get (maxLength : Nat) (p : List Byte) (rs : List Rec) : ∀ (i : Nat) (s : Sys) (k : Nat) (r : Rec), rs[k]? = some r →
    r.data.length < maxLength →
    (∀ (j : Nat) (r' : Rec), rs[j]? = some r' → k < j → outName p (i + j) r'.name ≠ outName p (i + k) r.name) →
    (afterAll maxLength (some p) i rs s).files (outName p (i + k) r.name) = some r.data := by
  induction rs with
  | nil => intro i s k r hk; simp at hk
  | cons r0 rs ih =>
    intro i s k r hk hm hd
    cases k with
    | zero =>
      simp only [List.getElem?_cons_zero, Option.some.injEq] at hk
      subst hk
      rw [afterAll, afterAll_files maxLength p rs _ (i + 1) _ (fun k r' hk _ => by
        have := hd (k + 1) r' (by simpa using hk) (by omega)
        rwa [show i + 1 + k = i + (k + 1) by omega])]
      simp [after, hm]
    | succ k =>
      rw [afterAll]
      have := ih (i + 1) (after maxLength (some p) i r0 s) k r (by simpa using hk) hm (fun j r' hj hlt => by
        have := hd (j + 1) r' (by simpa using hj) (by omega)
        rwa [show i + 1 + j = i + (j + 1) by omega, show i + 1 + k = i + (k + 1) by omega])
      rwa [show i + 1 + k = i + (k + 1) by omega] at this

/-- C94: given a pattern, each record shorter than the limit is found with exactly its bytes in the file whose name has the
pattern, the index and the name of the record; all other files are as before. The file may have been written by a machine of any endianness. -/
theorem C94_each_record_has_its_file_partial (m1 m2 : Endianness) (junk1 junk2 : Mem) (ign : Bool) (canOpen : List Byte → Bool) (maxLength : Nat)
    (pat : List Byte) (hpat : pat.length ≤ 880) (files : List Byte → Option (List Byte)) (rs : List Rec) (ok : ∀ r ∈ rs, r.Ok) (hrs : rs.length < 2 ^ 31)
    (hopen : ∀ (i : Nat) (r : Rec), rs[i]? = some r → canOpen (fileOf pat i r) = true) :
    ∃ s, dump m2 junk2 ign canOpen maxLength (some pat) files (rs.flatMap (Rec.bytes m1 junk1)) = some s ∧
      (∀ (i : Nat) (r : Rec), rs[i]? = some r → r.data.length < maxLength → s.files (fileOf pat i r) = some r.data) ∧
      (∀ f, (∀ (i : Nat) (r : Rec), rs[i]? = some r → r.data.length < maxLength → f ≠ fileOf pat i r) → s.files f = files f) ∧
      s.text = rs.flatMap (textOf maxLength false) := by
  have hname : ∀ (i : Nat) (r : Rec), rs[i]? = some r → outName pat i r.name = fileOf pat i r := by
    intro i r hi
    have hm := List.mem_of_getElem? hi
    have := (List.getElem?_eq_some_iff.1 hi).1
    exact outName_eq pat i r (ok r hm) hpat (by omega)
  refine ⟨_, dump_all m1 m2 junk1 junk2 ign canOpen maxLength (some pat) files rs ok ?_, ?_, ?_, ?_⟩
  · intro k r p hk hp _
    simp only [Option.some.injEq] at hp
    subst hp
    rw [hname k r hk]; exact hopen k r hk
  · intro i r hi hm
    have := afterAll_get maxLength pat rs 0 ⟨[], files⟩ i r hi hm (fun j r' hj hlt he => by
      rw [Nat.zero_add, Nat.zero_add, hname j r' hj, hname i r hi] at he
      have := fileOf_inj _ _ _ _ _ he
      omega)
    rwa [Nat.zero_add, hname i r hi] at this
  · intro f hf
    exact afterAll_files maxLength pat rs f 0 ⟨[], files⟩ (fun k r hk hm => by
      rw [Nat.zero_add, hname k r hk]; exact (hf k r hk hm).symm)
  · rw [afterAll_text]; simp

/-- C94: without a pattern no file is written, and for each record the name, the length and, if short enough, the data up to the
first zero are printed. -/
theorem C94_records_are_printed (m1 m2 : Endianness) (junk1 junk2 : Mem) (ign : Bool) (canOpen : List Byte → Bool) (maxLength : Nat)
    (files : List Byte → Option (List Byte)) (rs : List Rec) (ok : ∀ r ∈ rs, r.Ok) :
    dump m2 junk2 ign canOpen maxLength none files (rs.flatMap (Rec.bytes m1 junk1)) = some ⟨rs.flatMap (textOf maxLength true), files⟩ := by
  rw [dump_all m1 m2 junk1 junk2 ign canOpen maxLength none files rs ok (fun _ _ _ _ h _ => by cases h)]
  have h1 := afterAll_text maxLength none rs 0 ⟨[], files⟩
  have h2 := afterAll_files_none maxLength rs 0 ⟨[], files⟩
  congr 1
  generalize afterAll maxLength none 0 rs ⟨[], files⟩ = s at h1 h2
  cases s
  simp only [Option.isNone_none, List.nil_append] at h1 h2
  rw [h1, h2]

/-- C94: the two indices of different records are different, so that no file is used twice. -/
theorem C94_names_differ (pat : List Byte) (i j : Nat) (r r' : Rec) (h : i ≠ j) : fileOf pat i r ≠ fileOf pat j r' :=
  fun e => h (fileOf_inj pat i j r r' e)

/-- C94: a file that ends within a record to be read is refused. -/
theorem C94_truncated_is_refused (m1 m2 : Endianness) (junk1 junk2 : Mem) (ign : Bool) (canOpen : List Byte → Bool) (maxLength : Nat)
    (pat : Option (List Byte)) (files : List Byte → Option (List Byte)) (rs : List Rec) (ok : ∀ r ∈ rs, r.Ok)
    (hopen : ∀ f, canOpen f = true) (r : Rec) (okr : r.Ok) (hm : r.data.length < maxLength) (part : List Byte) (hp : part.length < r.data.length) :
    dump m2 junk2 ign canOpen maxLength pat files (rs.flatMap (Rec.bytes m1 junk1) ++
      (headerBytes m1 junk1 (buildHeader r.mb.toNat r.me.toNat r.name r.data.length) ++ part)) = none := by
  obtain ⟨fuel, -, e⟩ := dump_eq m1 m2 junk1 junk2 ign canOpen maxLength pat files rs ok
    (headerBytes m1 junk1 (buildHeader r.mb.toNat r.me.toNat r.name r.data.length) ++ part) (fun _ _ _ _ _ _ => hopen _)
  have hf := (flat m1 junk1 rs ok).2
  have hl := headerBytes_length m1 junk1 _ (header_ok r okr)
  obtain ⟨hd, e1, e2, e3⟩ := header_of m1 m2 junk1 junk2 ign (rs.flatMap (Rec.bytes m1 junk1)) part r okr hf
  rw [List.append_assoc] at e1
  rw [e, loop, if_neg (by simp only [reachedEOF, decide_eq_true_eq, List.length_append, hl]; omega), e1, Option.bind_some]
  try simp only
  rw [e3, Option.bind_some, e2]
  try simp only
  rw [if_pos hm]
  have : readAll ⟨rs.flatMap (Rec.bytes m1 junk1) ++ (headerBytes m1 junk1 (buildHeader r.mb.toNat r.me.toNat r.name r.data.length) ++ part),
      (rs.flatMap (Rec.bytes m1 junk1)).length + 144⟩ r.data.length = none := by
    unfold readAll
    rw [seek8_of _ (by show ((rs.flatMap (Rec.bytes m1 junk1)).length + 144) % 8 = 0; omega)]
    simp only
    rw [if_pos]
    rw [List.length_take, List.length_drop, List.length_append, List.length_append, hl]
    omega
  rw [this]; rfl

/-- C94: bytes after the last record, fewer than those of a header, are an error. -/
theorem C94_rest_is_refused (m1 m2 : Endianness) (junk1 junk2 : Mem) (ign : Bool) (canOpen : List Byte → Bool) (maxLength : Nat)
    (pat : Option (List Byte)) (files : List Byte → Option (List Byte)) (rs : List Rec) (ok : ∀ r ∈ rs, r.Ok)
    (hopen : ∀ f, canOpen f = true) (rest : List Byte) (h0 : rest ≠ []) (h1 : rest.length < 144) :
    dump m2 junk2 ign canOpen maxLength pat files (rs.flatMap (Rec.bytes m1 junk1) ++ rest) = none := by
  obtain ⟨fuel, -, e⟩ := dump_eq m1 m2 junk1 junk2 ign canOpen maxLength pat files rs ok rest (fun _ _ _ _ _ _ => hopen _)
  have hf := (flat m1 junk1 rs ok).2
  have h2 := List.length_pos_of_ne_nil h0
  have : getNextHeader m2 junk2 ign ⟨rs.flatMap (Rec.bytes m1 junk1) ++ rest, (rs.flatMap (Rec.bytes m1 junk1)).length⟩ = none := by
    unfold getNextHeader readAll
    have e8 := seek8_of ⟨rs.flatMap (Rec.bytes m1 junk1) ++ rest, (rs.flatMap (Rec.bytes m1 junk1)).length⟩ hf
    rw [e8, e8]
    simp only
    rw [if_pos]
    · rfl
    · rw [List.drop_left, List.length_take]; omega
  rw [e, loop, if_neg (by simp only [reachedEOF, decide_eq_true_eq, List.length_append]; omega), this]
  rfl

/-! ### What is missing -/

/-- What is missing in C94: a file that ends within a record over the limit is taken as good. -/
theorem C94_violated_truncated_skip (m1 m2 : Endianness) (junk1 junk2 : Mem) (ign : Bool) (canOpen : List Byte → Bool) (maxLength : Nat)
    (pat : Option (List Byte)) (files : List Byte → Option (List Byte)) (r : Rec) (okr : r.Ok) (hm : maxLength ≤ r.data.length) :
    ∃ s, dump m2 junk2 ign canOpen maxLength pat files
      (headerBytes m1 junk1 (buildHeader r.mb.toNat r.me.toNat r.name r.data.length)) = some s ∧ s.files = files := by
  have hl := headerBytes_length m1 junk1 _ (header_ok r okr)
  obtain ⟨hd, e1, e2, e3⟩ := header_of m1 m2 junk1 junk2 ign [] [] r okr rfl
  simp only [List.nil_append, List.append_nil, List.length_nil, Nat.zero_add] at e1
  unfold dump
  rw [hl, loop, if_neg (by simp [reachedEOF, hl]), e1, Option.bind_some]
  try simp only
  rw [e3, Option.bind_some, e2]
  try simp only
  rw [if_neg (by omega), loop, skip_of _ _ hd r.pad (by norm_num) (by rw [e2]; exact diff_pad r okr),
    if_pos (by simp only [reachedEOF, decide_eq_true_eq, hl]; omega)]
  exact ⟨_, rfl, rfl⟩

/-- What is missing in C94: with a pattern too long all the records go to the same file, and only the last one is left. -/
theorem C94_violated_long_pattern (pat : List Byte) (h : 1023 ≤ pat.length) (i j : Nat) (n n' : List Byte) : outName pat i n = outName pat j n' := by
  unfold outName
  simp only [List.append_assoc]
  rw [List.take_append_of_le_length h, List.take_append_of_le_length h]

/-- What is missing in C94: data with a zero are not printed whole. -/
theorem C94_violated_zeros_cut_the_text : textOf 10 true ⟨str "a", [1#8, 0#8, 2#8], false, false, []⟩ =
    textOf 10 true ⟨str "a", [1#8, 0#8, 3#8], false, false, []⟩ := by decide +kernel

/-- The hypotheses of C94. -/
example : ∀ r ∈ [(⟨str "ildg-format", str "<xml>", true, false, [0#8, 0#8, 0#8]⟩ : Rec), ⟨str "data", List.replicate 16 7#8, false, true, []⟩], r.Ok := by
  intro r hr
  simp only [List.mem_cons, List.not_mem_nil, or_false] at hr
  rcases hr with rfl | rfl
  · exact ⟨by decide, by decide, by decide, by decide⟩
  · exact ⟨by decide, by decide, by simp, by simp⟩

example : fileOf (str "out") 12 ⟨str "data", [], false, false, []⟩ = str "out_rec_12_data" := by
  decide +kernel
end Nissa.ReadIldg
