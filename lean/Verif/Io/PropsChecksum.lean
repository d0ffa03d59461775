/- C21: the checksum does not depend on the decomposition, and detects corruption. -/
import Verif.Io.Checksum
import Mathlib.Data.List.GetD
set_option linter.all false

namespace Nissa.Checksum
open Nissa.Endian (Mem Byte Endianness mask bytesOf)
open Nissa.Lx (Coords Geo box CoordTable)

/-! ### Specification: the standard (reflected) CRC-32, bit by bit, and the rotation of a word -/

/-- one division step of the reflected polynomial -/
def specStep (c : BitVec 32) : BitVec 32 := if c.getLsbD 0 then 0xedb88320#32 ^^^ (c >>> 1) else c >>> 1

/-- CRC-32 of a sequence of bytes -/
def crc32 (bytes : List Byte) : BitVec 32 := ~~~ (bytes.foldl (fun c b => specStep^[8] (c ^^^ b.zeroExtend 32)) (BitVec.allOnes 32))

/-- the check value of the CRC-32 standard -/
example : crc32 ("123456789".toList.map (fun c => BitVec.ofNat 8 c.toNat)) = 0xcbf43926#32 := by decide +kernel

/-- the bytes of a site in the order of the file: each real as big-endian number -/
def siteBytes (sizeofT nDegs : Nat) (v : Nat → Nat) : List Byte :=
  (List.range nDegs).flatMap (fun iDeg => (List.range sizeofT).map (bytesOf .big sizeofT (v iDeg)))

/-- position of a site in the file (x fastest, then y, z, t) -/
def fileSite (L c : Coords) : Nat := ((c 0 * L 3 + c 3) * L 2 + c 2) * L 1 + c 1

/-- exclusive or, as an additive commutative monoid -/
def XorWord := BitVec 32

instance : Zero XorWord := ⟨(0#32 : BitVec 32)⟩
instance : Add XorWord := ⟨fun a b => BitVec.xor a b⟩

instance : AddCommMonoid XorWord where
  add_assoc := BitVec.xor_assoc
  zero_add a := BitVec.zero_xor (x := a)
  add_zero a := BitVec.xor_zero (x := a)
  add_comm := BitVec.xor_comm
  nsmul := nsmulRec

/-- the same word seen in the monoid -/
def toX (a : BitVec 32) : XorWord := a
/-- back to words -/
def ofX (a : XorWord) : BitVec 32 := a

/-- Specification: the two checksums rotate the crc of a site by its position in the file modulo 29 and modulo 31 -/
def period (k : Fin 2) : Nat := if k = 0 then 29 else 31

/-- SciDAC checksum of a lattice: exclusive or, over all the sites, of their crc rotated -/
def specChecksum (sizeofT nDegs : Nat) (L : Coords) (D : Coords → Nat → Nat) (k : Fin 2) : BitVec 32 :=
  ofX (∑ c ∈ box L, toX ((crc32 (siteBytes sizeofT nDegs (D c))).rotateLeft (fileSite L c % period k)))

/-! ### Lemmas -/

theorem and_one (c : BitVec 32) : (c &&& 1#32 ≠ 0#32) ↔ c.getLsbD 0 = true := by
  constructor
  · intro h
    by_contra hc
    apply h
    apply BitVec.eq_of_getLsbD_eq
    intro i hi
    rw [BitVec.getLsbD_and, BitVec.getLsbD_one]
    by_cases h0 : i = 0
    · subst h0; rw [Bool.not_eq_true] at hc; rw [hc]; rfl
    · simp [h0, Ne.symm h0]
  · intro h he
    have := congrArg (fun x => x.getLsbD 0) he
    rw [BitVec.getLsbD_and, h] at this
    exact absurd this (by decide)

theorem crcStep_eq (c : BitVec 32) : crcStep c = specStep c := by
  unfold crcStep specStep
  by_cases h : c.getLsbD 0 = true
  · rw [if_pos ((and_one c).2 h), if_pos h]; rfl
  · rw [if_neg (fun hh => h ((and_one c).1 hh)), if_neg h]

theorem shr_xor (a b : BitVec 32) (n : Nat) : (a ^^^ b) >>> n = (a >>> n) ^^^ (b >>> n) := by
  apply BitVec.eq_of_getLsbD_eq
  intro i hi
  simp

theorem specStep_xor (a b : BitVec 32) : specStep (a ^^^ b) = specStep a ^^^ specStep b := by
  unfold specStep
  have h := BitVec.getLsbD_xor (x := a) (y := b) (i := 0)
  rw [shr_xor, h]
  cases a.getLsbD 0 <;> cases b.getLsbD 0
  · simp
  · simp only [Bool.false_xor, if_true, if_false, Bool.false_eq_true]
    rw [← BitVec.xor_assoc, BitVec.xor_comm (0xedb88320#32), BitVec.xor_assoc]
  · simp only [Bool.xor_false, if_true, if_false, Bool.false_eq_true, BitVec.xor_assoc]
  · simp only [Bool.xor_self, if_true, if_false, Bool.false_eq_true]
    rw [BitVec.xor_comm (0xedb88320#32) (a >>> 1), BitVec.xor_assoc, ← BitVec.xor_assoc (0xedb88320#32), BitVec.xor_self, BitVec.zero_xor]

theorem iter_xor (n : Nat) (a b : BitVec 32) : specStep^[n] (a ^^^ b) = specStep^[n] a ^^^ specStep^[n] b := by
  induction n generalizing a b with
  | zero => rfl
  | succ n ih => rw [Function.iterate_succ_apply, specStep_xor, ih]; rfl

theorem specStep_zero_inj (z : BitVec 32) (h : specStep z = 0#32) : z = 0#32 := by
  unfold specStep at h
  by_cases h0 : z.getLsbD 0 = true
  · rw [if_pos h0] at h
    have := congrArg (fun x => x.getLsbD 31) h
    simp at this
  · rw [if_neg h0] at h
    apply BitVec.eq_of_getLsbD_eq
    intro i hi
    cases i with
    | zero => simpa using h0
    | succ i =>
      have := congrArg (fun x => x.getLsbD i) h
      simp only [BitVec.getLsbD_ushiftRight, BitVec.getLsbD_zero] at this ⊢
      rw [Nat.add_comm] at this; exact this

theorem specStep_injective : Function.Injective specStep := by
  intro a b h
  have : specStep (a ^^^ b) = 0#32 := by rw [specStep_xor, h, BitVec.xor_self]
  have := specStep_zero_inj _ this
  exact BitVec.xor_eq_zero_iff.1 this

/-- the step on a word whose low bit vanishes is a shift -/
theorem iter_shift (n : Nat) (z : BitVec 32) (h : ∀ i, i < n → z.getLsbD i = false) : specStep^[n] z = z >>> n := by
  induction n generalizing z with
  | zero => simp
  | succ n ih =>
    rw [Function.iterate_succ_apply]
    have : specStep z = z >>> 1 := by
      unfold specStep; rw [if_neg (by rw [h 0 (by omega)]; simp)]
    rw [this, ih (z >>> 1) (fun i hi => by rw [BitVec.getLsbD_ushiftRight]; exact h (1 + i) (by omega))]
    apply BitVec.eq_of_getLsbD_eq
    intro i hi
    simp only [BitVec.getLsbD_ushiftRight]
    congr 1; omega

theorem getLsbD_ff (i : Nat) : (0xff#32).getLsbD i = decide (i < 8) := by
  have h32 : i < 32 → (0xff#32).getLsbD i = decide (i < 8) := by
    intro hi
    exact (by decide : ∀ i : Fin 32, (0xff#32).getLsbD i.val = decide (i.val < 8)) ⟨i, hi⟩
  by_cases hi : i < 32
  · exact h32 hi
  · rw [BitVec.getLsbD_of_ge _ _ (by omega)]
    exact (decide_eq_false (by omega)).symm

theorem crcValue_eq (c : BitVec 32) : crcValue c = specStep^[8] c := by
  simp only [crcValue, crcStep_eq]; rfl

theorem crcByte_eq (c : BitVec 32) (b : Byte) : crcByte c b = specStep^[8] (c ^^^ b.zeroExtend 32) := by
  unfold crcByte
  rw [crcValue_eq]
  have e1 : (c ^^^ b.signExtend 32) &&& 0xff#32 = (c ^^^ b.zeroExtend 32) &&& 0xff#32 := by
    apply BitVec.eq_of_getLsbD_eq
    intro i hi
    simp only [BitVec.getLsbD_and, BitVec.getLsbD_xor, getLsbD_ff, BitVec.getLsbD_signExtend, BitVec.zeroExtend, BitVec.getLsbD_setWidth]
    by_cases h8 : i < 8
    · simp [h8, hi]
    · simp [h8]
  have e2 : c >>> 8 = ((c ^^^ b.zeroExtend 32) &&& ~~~0xff#32) >>> 8 := by
    apply BitVec.eq_of_getLsbD_eq
    intro i hi
    simp only [BitVec.getLsbD_ushiftRight, BitVec.getLsbD_and, BitVec.getLsbD_xor, BitVec.getLsbD_not, getLsbD_ff, BitVec.zeroExtend, BitVec.getLsbD_setWidth]
    by_cases h : 8 + i < 32
    · simp [h]
    · simp [h, BitVec.getLsbD_of_ge c (8 + i) (by omega)]
  rw [e1, e2, ← iter_shift 8 _ (fun i hi => by rw [BitVec.getLsbD_and, BitVec.getLsbD_not, getLsbD_ff]; simp [hi]), ← iter_xor]
  congr 1
  apply BitVec.eq_of_getLsbD_eq
  intro i hi
  simp only [BitVec.getLsbD_and, BitVec.getLsbD_xor, BitVec.getLsbD_not, getLsbD_ff, BitVec.zeroExtend, BitVec.getLsbD_setWidth]
  by_cases h8 : i < 8 <;> simp [h8, hi]

/-- crc of a site in terms of the standard CRC of its bytes -/
theorem siteCrc_eq (native : Endianness) (n nDegs : Nat) (v : Nat → Nat) :
    siteCrc native n nDegs (fun iDeg => bytesOf native n (v iDeg)) = crc32 (siteBytes n nDegs v) := by
  have hones : (0xffffffff#32) = BitVec.allOnes 32 := by decide
  unfold siteCrc crc32 siteBytes
  rw [hones, BitVec.xor_allOnes]
  congr 1
  generalize BitVec.allOnes 32 = c0
  have inner : ∀ w c, (List.range n).foldl (fun crc i => crcByte crc (mask .big native n (bytesOf native n w) i)) c =
      ((List.range n).map (bytesOf .big n w)).foldl (fun c b => specStep^[8] (c ^^^ b.zeroExtend 32)) c := by
    intro w c
    rw [List.foldl_map]
    have : ∀ l : List Nat, (∀ i ∈ l, i < n) → ∀ c, l.foldl (fun crc i => crcByte crc (mask .big native n (bytesOf native n w) i)) c =
        l.foldl (fun c i => specStep^[8] (c ^^^ (bytesOf .big n w i).zeroExtend 32)) c := by
      intro l
      induction l with
      | nil => intro _ _; rfl
      | cons a l ih =>
        intro hl c
        rw [List.foldl_cons, List.foldl_cons, ih (fun i hi => hl i (by simp [hi])), crcByte_eq]
        have : mask .big native n (bytesOf native n w) a = bytesOf .big n w a := by
          have := hl a (by simp)
          cases native <;> simp [mask, bytesOf]
        rw [this]
    exact this _ (fun i hi => List.mem_range.1 hi) c
  simp only [inner]
  generalize List.range nDegs = l
  induction l generalizing c0 with
  | nil => rfl
  | cons a l ih => rw [List.foldl_cons, ih, List.flatMap_cons, List.foldl_append]

theorem rot_eq (ub : BitVec 32 → BitVec 32) (hub : ∀ x, ub x = x ∨ ub x = 0#32) (x : BitVec 32) (r : Nat) (hr : r < 32) :
    rot ub x r = x.rotateLeft r := by
  rw [BitVec.rotateLeft_def, Nat.mod_eq_of_lt hr]
  unfold rot shr
  by_cases h : r = 0
  · subst h
    rw [if_neg (by omega)]
    have z : x >>> 32 = 0#32 := BitVec.ushiftRight_eq_zero (by omega)
    rcases hub x with e | e <;> rw [e, Nat.sub_zero, z] <;> simp
  · rw [if_pos (by omega)]

theorem modulus_eq (k : Fin 2) : modulus k = period k := by revert k; decide

theorem mod_lt_32 (m : Nat) (k : Fin 2) : m % modulus k < 32 := by
  have : 0 < modulus k ∧ modulus k ≤ 32 := by revert k; decide
  exact Nat.lt_of_lt_of_le (Nat.mod_lt _ this.1) this.2

theorem fileSite_lt (L c : Coords) (hc : ∀ mu, c mu < L mu) : fileSite L c < Nissa.Lx.volOfLx L := by
  have e : ∀ a b m n : Nat, a < m → b < n → a * n + b < m * n := by
    intro a b m n ha hb
    calc a * n + b < a * n + n := by omega
      _ = (a + 1) * n := by ring
      _ ≤ m * n := Nat.mul_le_mul_right _ ha
  rw [Nissa.Lx.C01_volOfLx]
  have := e _ _ _ _ (e _ _ _ _ (e _ _ _ _ (hc 0) (hc 3)) (hc 2)) (hc 1)
  unfold fileSite
  calc _ < _ := this
    _ = _ := by ring

theorem ildgIvol_eq (L c : Coords) (hc : ∀ mu, c mu < L mu) (hV : Nissa.Lx.volOfLx L < 2 ^ 32) : ildgIvol L c = fileSite L c := by
  have h := fileSite_lt L c hc
  unfold ildgIvol
  simp only [List.foldl_cons, List.foldl_nil]
  have p : ∀ mu, 0 < L mu := fun mu => by have := hc mu; omega
  have m1 : ∀ a b n : Nat, a % 2 ^ 32 * n % 2 ^ 32 = a * n % 2 ^ 32 := fun a b n => by rw [Nat.mod_mul_mod]
  have : ∀ a n b : Nat, (a % 2 ^ 32 * n + b) % 2 ^ 32 = (a * n + b) % 2 ^ 32 := fun a n b => by
    rw [Nat.add_mod, m1 a b n, ← Nat.add_mod]
  rw [this (c 0), this (c 0 * L 3 + c 3), this ((c 0 * L 3 + c 3) * L 2 + c 2)]
  exact Nat.mod_eq_of_lt (lt_trans h hV)

theorem foldl_xor (n : Nat) (f : Nat → BitVec 32) :
    (List.range n).foldl (fun acc rk => acc ^^^ f rk) 0#32 = ofX (∑ rk ∈ Finset.range n, toX (f rk)) := by
  induction n with
  | zero => rfl
  | succ n ih =>
    rw [List.range_succ, List.foldl_append, ih, Finset.sum_range_succ]; rfl

/-! ### C21 -/

/-- C21: on every grid of ranks, machine endianness and schedule of the reduction, the checksum of a field is the one given by the
specification, in which the grid does not appear. `ub` is the result of the undefined shift by 32, assumed to be what the processors do
(shift amount taken modulo 32, or zero). -/
theorem C21_checksum_spec (ub : BitVec 32 → BitVec 32) (hub : ∀ x, ub x = x ∨ ub x = 0#32) (native : Endianness) (sizeofT nDegs : Nat)
    (sched : Nat → Nat → List Nat) (hs : ∀ rk, Nissa.Reduce.Legal (sched rk)) (g : Geo) (ok : g.Ok) (hV : g.glbVol < 2 ^ 32)
    (X : Nat → Nat → Coords) (hX : CoordTable g X) (D : Coords → Nat → Nat) (k : Fin 2) :
    ildgChecksum ub native sizeofT nDegs sched g X (fun rk ivol iDeg => bytesOf native sizeofT (D (X rk ivol) iDeg)) k =
      specChecksum sizeofT nDegs g.L D k := by
  have hn : 0 < g.locVol := by
    obtain ⟨-, h, -⟩ := Nissa.Lx.C02_rank_and_loclx g ok (fun _ => 0) (fun mu => by
      have := ok.loc_ge mu; have := Nat.div_le_self (g.L mu) (g.R mu); unfold Geo.loc at *; omega)
    omega
  unfold ildgChecksum
  rw [foldl_xor]
  have e := Nissa.Reduce.C11_field_reduce (M := XorWord) g.nranks sched hs g.locVol hn
    (fun rk ivol => toX (buff ub native sizeofT nDegs g.L (X rk ivol) (fun iDeg => bytesOf native sizeofT (D (X rk ivol) iDeg)) k))
  refine Eq.trans (congrArg ofX e) ?_
  have s := Nissa.Lx.sum_sites (M := XorWord) g ok X hX (fun c => toX (buff ub native sizeofT nDegs g.L c (fun iDeg => bytesOf native sizeofT (D c iDeg)) k))
  refine Eq.trans (congrArg ofX s) ?_
  unfold specChecksum
  congr 1
  refine Finset.sum_congr rfl (fun c hc => ?_)
  have hc := Nissa.Lx.mem_box.1 hc
  unfold buff
  rw [ildgIvol_eq _ _ hc hV, siteCrc_eq, rot_eq ub hub _ _ (mod_lt_32 _ k), modulus_eq]

/-- C21: two runs on different grids, machines and schedules compute the same checksum of the same global field -/
theorem C21_independent_of_grid (ub1 ub2 : BitVec 32 → BitVec 32) (hub1 : ∀ x, ub1 x = x ∨ ub1 x = 0#32) (hub2 : ∀ x, ub2 x = x ∨ ub2 x = 0#32)
    (m1 m2 : Endianness) (sizeofT nDegs : Nat)
    (sched1 sched2 : Nat → Nat → List Nat) (hs1 : ∀ rk, Nissa.Reduce.Legal (sched1 rk)) (hs2 : ∀ rk, Nissa.Reduce.Legal (sched2 rk))
    (g1 g2 : Geo) (ok1 : g1.Ok) (ok2 : g2.Ok) (hL : g1.L = g2.L) (hV : g1.glbVol < 2 ^ 32)
    (X1 X2 : Nat → Nat → Coords) (hX1 : CoordTable g1 X1) (hX2 : CoordTable g2 X2) (D : Coords → Nat → Nat) (k : Fin 2) :
    ildgChecksum ub1 m1 sizeofT nDegs sched1 g1 X1 (fun rk ivol iDeg => bytesOf m1 sizeofT (D (X1 rk ivol) iDeg)) k =
    ildgChecksum ub2 m2 sizeofT nDegs sched2 g2 X2 (fun rk ivol iDeg => bytesOf m2 sizeofT (D (X2 rk ivol) iDeg)) k := by
  rw [C21_checksum_spec ub1 hub1 m1 _ _ _ hs1 g1 ok1 hV _ hX1, C21_checksum_spec ub2 hub2 m2 _ _ _ hs2 g2 ok2 _ _ hX2, hL]
  rw [Geo.glbVol, ← hL]; exact hV

theorem rotateLeft_inj (x y : BitVec 32) (r : Nat) (hr : r < 32) (h : x.rotateLeft r = y.rotateLeft r) : x = y := by
  have hx : ∀ z : BitVec 32, ∀ i, i < 32 → (z.rotateLeft r).getLsbD ((i + r) % 32) = z.getLsbD i := by
    intro z i hi
    rw [BitVec.getLsbD_rotateLeft, Nat.mod_eq_of_lt hr]
    simp only [Bool.cond_eq_ite, decide_eq_true_eq]
    by_cases h2 : i + r < 32
    · rw [Nat.mod_eq_of_lt h2, if_neg (by omega)]
      have : i + r - r = i := by omega
      rw [this]; simp [h2]
    · have : (i + r) % 32 = i + r - 32 := by omega
      rw [this, if_pos (by omega)]
      congr 1; omega
  apply BitVec.eq_of_getLsbD_eq
  intro i hi
  rw [← hx x i hi, ← hx y i hi, h]

/-- C21: a change of the data of a single site which changes the crc of that site changes both the checksums -/
theorem C21_single_site (sizeofT nDegs : Nat) (L : Coords) (D D' : Coords → Nat → Nat) (c : Coords) (hc : ∀ mu, c mu < L mu)
    (hother : ∀ c', c' ≠ c → D' c' = D c') (hcrc : crc32 (siteBytes sizeofT nDegs (D' c)) ≠ crc32 (siteBytes sizeofT nDegs (D c))) (k : Fin 2) :
    specChecksum sizeofT nDegs L D' k ≠ specChecksum sizeofT nDegs L D k := by
  unfold specChecksum
  have hm : c ∈ box L := Nissa.Lx.mem_box.2 hc
  rw [← Finset.add_sum_erase _ _ hm, ← Finset.add_sum_erase _ _ hm]
  have e : ∑ x ∈ (box L).erase c, toX ((crc32 (siteBytes sizeofT nDegs (D' x))).rotateLeft (fileSite L x % period k)) =
      ∑ x ∈ (box L).erase c, toX ((crc32 (siteBytes sizeofT nDegs (D x))).rotateLeft (fileSite L x % period k)) :=
    Finset.sum_congr rfl (fun x hx => by rw [hother x (Finset.ne_of_mem_erase hx)])
  rw [e]
  generalize ∑ x ∈ (box L).erase c, toX ((crc32 (siteBytes sizeofT nDegs (D x))).rotateLeft (fileSite L x % period k)) = s
  intro h
  have h' : (crc32 (siteBytes sizeofT nDegs (D' c))).rotateLeft (fileSite L c % period k) ^^^ ofX s =
    (crc32 (siteBytes sizeofT nDegs (D c))).rotateLeft (fileSite L c % period k) ^^^ ofX s := h
  exact hcrc (rotateLeft_inj _ _ _ (modulus_eq k ▸ mod_lt_32 _ k) ((BitVec.xor_left_inj _).1 h'))

/-! #### bursts -/

/-- up to four bytes as a single word -/
def pack : List Byte → BitVec 32
  | [] => 0#32
  | b :: l => b.zeroExtend 32 ^^^ (pack l <<< 8)

theorem pack_bits (l : List Byte) (i : Nat) (hi : i < 32) : (pack l).getLsbD i = (l.getD (i / 8) 0#8).getLsbD (i % 8) := by
  induction l generalizing i with
  | nil => simp [pack]
  | cons b l ih =>
    simp only [pack, BitVec.getLsbD_xor, BitVec.zeroExtend, BitVec.getLsbD_setWidth, BitVec.getLsbD_shiftLeft]
    by_cases h : i < 8
    · rw [Nat.div_eq_of_lt h, Nat.mod_eq_of_lt h]
      simp [h, hi]
    · rw [ih (i - 8) (by omega)]
      have e1 : i / 8 = (i - 8) / 8 + 1 := by omega
      have e2 : i % 8 = (i - 8) % 8 := by omega
      rw [e1, e2, List.getD_cons_succ, BitVec.getLsbD_of_ge b i (by omega)]
      simp [h, hi]

theorem crcs_pack (l : List Byte) (hl : l.length ≤ 4) (c : BitVec 32) :
    l.foldl (fun c b => specStep^[8] (c ^^^ b.zeroExtend 32)) c = specStep^[8 * l.length] (c ^^^ pack l) := by
  induction l generalizing c with
  | nil => simp [pack]
  | cons b l ih =>
    have hl' : l.length ≤ 3 := by rw [List.length_cons] at hl; omega
    rw [List.foldl_cons, ih (by omega), List.length_cons, Nat.mul_add, Nat.mul_one, Function.iterate_add_apply]
    congr 1
    have : pack l = specStep^[8] (pack l <<< 8) := by
      rw [iter_shift 8 _ (fun i hi => by rw [BitVec.getLsbD_shiftLeft]; simp [hi])]
      apply BitVec.eq_of_getLsbD_eq
      intro i hi
      rw [BitVec.getLsbD_ushiftRight, BitVec.getLsbD_shiftLeft]
      by_cases h : 8 + i < 32
      · simp [h]
      · rw [pack_bits l i hi, List.getD_eq_default _ _ (by omega)]
        simp [h]
    conv_lhs => rw [this]
    rw [← iter_xor]
    congr 1
    rw [pack, BitVec.xor_assoc]

theorem crcs_inj (l : List Byte) (c c' : BitVec 32) (h : l.foldl (fun c b => specStep^[8] (c ^^^ b.zeroExtend 32)) c = l.foldl (fun c b => specStep^[8] (c ^^^ b.zeroExtend 32)) c') :
    c = c' := by
  induction l generalizing c c' with
  | nil => exact h
  | cons b l ih =>
    have := ih _ _ (by simpa using h)
    exact (BitVec.xor_left_inj _).1 (specStep_injective.iterate 8 this)

/-- C21: the crc detects every corruption confined to at most 4 consecutive bytes, in any position of data of any length -/
theorem C21_burst (pre mid mid' post : List Byte) (hl : mid.length = mid'.length) (h4 : mid.length ≤ 4) (hne : mid ≠ mid') :
    crc32 (pre ++ mid ++ post) ≠ crc32 (pre ++ mid' ++ post) := by
  intro h
  unfold crc32 at h
  have h := BitVec.not_inj.1 h
  simp only [List.foldl_append] at h
  have h := crcs_inj _ _ _ h
  generalize List.foldl _ _ pre = c at h
  rw [crcs_pack _ h4, crcs_pack _ (hl ▸ h4), ← hl] at h
  have h := (BitVec.xor_right_inj _).1 (specStep_injective.iterate _ h)
  apply hne
  apply List.ext_getElem hl
  intro j h1 h2
  apply BitVec.eq_of_getLsbD_eq
  intro i hi
  have e := congrArg (fun x => x.getLsbD (8 * j + i)) h
  rw [pack_bits _ _ (by omega), pack_bits _ _ (by omega)] at e
  have d1 : (8 * j + i) / 8 = j := by omega
  have d2 : (8 * j + i) % 8 = i := by omega
  rw [d1, d2, List.getD_eq_getElem _ _ h1, List.getD_eq_getElem _ _ h2] at e
  exact e

/-- C21: so each corruption of a single site confined to 4 consecutive bytes changes both the checksums of the configuration -/
theorem C21_corruption_detected (sizeofT nDegs : Nat) (L : Coords) (D D' : Coords → Nat → Nat) (c : Coords) (hc : ∀ mu, c mu < L mu)
    (hother : ∀ c', c' ≠ c → D' c' = D c') (pre mid mid' post : List Byte) (hl : mid.length = mid'.length) (h4 : mid.length ≤ 4) (hne : mid ≠ mid')
    (h : siteBytes sizeofT nDegs (D c) = pre ++ mid ++ post) (h' : siteBytes sizeofT nDegs (D' c) = pre ++ mid' ++ post) :
    ∀ k, specChecksum sizeofT nDegs L D' k ≠ specChecksum sizeofT nDegs L D k :=
  C21_single_site sizeofT nDegs L D D' c hc hother (by rw [h, h']; exact (C21_burst _ _ _ _ hl h4 hne).symm)

/-- the first site of every lattice needs a rotation by zero, for which the code shifts a 32-bit word by 32: undefined behaviour of C++
is reached in each computation of a checksum (what processors do is harmless, see the hypothesis on `ub`) -/
theorem C21_undefined_shift (ub : BitVec 32 → BitVec 32) (native : Endianness) (sizeofT nDegs : Nat) (L : Coords) (fld : Nat → Mem) (k : Fin 2) :
    buff ub native sizeofT nDegs L (fun _ => 0) fld k = siteCrc native sizeofT nDegs fld ||| ub (siteCrc native sizeofT nDegs fld) := by
  have : ildgIvol L (fun _ => 0) = 0 := by simp [ildgIvol]
  unfold buff rot shr
  rw [this, Nat.zero_mod, if_neg (by omega)]
  simp

example : (⟨![8, 4, 4, 4], ![2, 2, 1, 1]⟩ : Geo).Ok ∧ (⟨![8, 4, 4, 4], ![2, 2, 1, 1]⟩ : Geo).glbVol < 2 ^ 32 := by decide

end Nissa.Checksum
