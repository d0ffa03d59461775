/-
Lemmas for Io/PropsFieldIo.lean: bytes of fields in memory and in files.
-/
import Verif.Io.FieldIo
import Verif.Io.PropsIldg
import Verif.Io.PropsChecksum
import Verif.Comm.PropsLayouts
set_option linter.all false

namespace Nissa.FieldIo
open Nissa.Lx Nissa.A2A Nissa.Layouts Nissa.Ildg
open Nissa.Endian (Byte Mem Endianness bytesOf valueOf fixToNative fixFromNative C20_byteSwap fixEndianness)
open Nissa.Checksum

/-! ### Specification -/

/-- coordinates (t, x, y, z) of the site at place `p` of a file: x runs fastest, then y, z, t -/
def fileCoords (L : Coords) (p : Nat) : Coords := ![p / (L 1 * L 2 * L 3), p % L 1, p / L 1 % L 2, p / (L 1 * L 2) % L 3]

/-- the bytes of a lattice of numbers in a file: site after site, each number big-endian -/
def fileData (sizeofT nDegs : Nat) (L : Coords) (D : Coords → Nat → Nat) : List Byte :=
  (List.range (L 0 * L 1 * L 2 * L 3)).flatMap (fun p => siteBytes sizeofT nDegs (D (fileCoords L p)))

/-- the ranks, together, hold the lattice of numbers `D`, each number as the machine represents it -/
def InMemory (native : Endianness) (sizeofT nDegs : Nat) (g : Geo) (X : Nat → Nat → Coords) (D : Coords → Nat → Nat) (m : Memory) : Prop :=
  ∀ r i iDeg b, r < g.nranks → i < g.locVol → iDeg < nDegs → b < sizeofT →
    m r ((i * nDegs + iDeg) * sizeofT + b) = bytesOf native sizeofT (D (X r i) iDeg) b

/-- what is asked to the machine: schedules are complete, and an undefined shift does one of the two things processors do -/
structure EnvOk (e : Env) (g : Geo) : Prop where
  pack : ∀ r, r < g.nranks → (e.packOrder r).Perm (List.range g.locVol)
  sched : ∀ rk, Nissa.Reduce.Legal (e.sched rk)
  shift : ∀ x, e.shift32 x = x ∨ e.shift32 x = 0#32
  ranks : e.rankOrder.Perm (List.range g.nranks)

/-! ### Lists -/

theorem flat_map {α : Type} (n b : Nat) (f : Nat → Nat → α) :
    (List.range n).flatMap (fun i => (List.range b).map (f i)) = (List.range (n * b)).map (fun k => f (k / b) (k % b)) := by
  induction n with
  | zero => simp
  | succ n ih =>
    rw [List.range_succ, List.flatMap_append, ih, List.flatMap_singleton, Nat.succ_mul, List.range_add, List.map_append, List.map_map]
    congr 1
    refine List.map_congr_left (fun j hj => ?_)
    have hj := List.mem_range.1 hj
    have hb : 0 < b := by omega
    show f n j = f ((n * b + j) / b) ((n * b + j) % b)
    rw [Nat.mul_comm n b, Nat.mul_add_div hb, Nat.mul_add_mod, Nat.div_eq_of_lt hj, Nat.mod_eq_of_lt hj, Nat.add_zero]

theorem flat_flat {α : Type} (n b : Nat) (f : Nat → List α) :
    (List.range n).flatMap (fun i => (List.range b).flatMap (fun j => f (i * b + j))) = (List.range (n * b)).flatMap f := by
  induction n with
  | zero => simp
  | succ n ih =>
    rw [List.range_succ, List.flatMap_append, ih, List.flatMap_singleton, Nat.succ_mul, List.range_add, List.flatMap_append, List.flatMap_map]

theorem flat_congr {α : Type} (n : Nat) (f f' : Nat → List α) (h : ∀ i, i < n → f i = f' i) : (List.range n).flatMap f = (List.range n).flatMap f' := by
  rw [List.flatMap_def, List.flatMap_def]
  congr 1
  exact List.map_congr_left (fun i hi => h i (List.mem_range.1 hi))

theorem map_congr' {α : Type} (n : Nat) (f f' : Nat → α) (h : ∀ i, i < n → f i = f' i) : (List.range n).map f = (List.range n).map f' :=
  List.map_congr_left (fun i hi => h i (List.mem_range.1 hi))

theorem split_lt {a b n k : Nat} (h : k < n * b) : k / b < n ∧ (0 < b) ∧ k % b < b ∧ k / b * b + k % b = k := by
  have hb : 0 < b := by rcases Nat.eq_zero_or_pos b with h0 | h0 <;> [(subst h0; omega); exact h0]
  exact ⟨(Nat.div_lt_iff_lt_mul hb).2 h, hb, Nat.mod_lt _ hb, Nat.div_add_mod' _ _⟩

theorem join_lt {i j n b : Nat} (hi : i < n) (hj : j < b) : i * b + j < n * b ∧ (i * b + j) / b = i ∧ (i * b + j) % b = j := by
  have hb : 0 < b := by omega
  refine ⟨?_, ?_, ?_⟩
  · calc i * b + j < i * b + b := by omega
      _ = (i + 1) * b := by ring
      _ ≤ n * b := Nat.mul_le_mul_right _ hi
  · rw [Nat.mul_comm i b, Nat.mul_add_div hb, Nat.div_eq_of_lt hj, Nat.add_zero]
  · rw [Nat.mul_comm i b, Nat.mul_add_mod, Nat.mod_eq_of_lt hj]

/-- bytes of a site, one by one -/
theorem siteBytes_map (sizeofT nDegs : Nat) (v : Nat → Nat) :
    siteBytes sizeofT nDegs v = (List.range (nDegs * sizeofT)).map (fun k => bytesOf .big sizeofT (v (k / sizeofT)) (k % sizeofT)) := by
  unfold siteBytes
  exact flat_map nDegs sizeofT (fun i j => bytesOf .big sizeofT (v i) j)

theorem siteBytes_length (sizeofT nDegs : Nat) (v : Nat → Nat) : (siteBytes sizeofT nDegs v).length = nDegs * sizeofT := by
  rw [siteBytes_map]; simp

theorem fileData_map (sizeofT nDegs : Nat) (L : Coords) (D : Coords → Nat → Nat) :
    fileData sizeofT nDegs L D = (List.range (L 0 * L 1 * L 2 * L 3 * (nDegs * sizeofT))).map (fun k =>
      bytesOf .big sizeofT (D (fileCoords L (k / (nDegs * sizeofT))) (k % (nDegs * sizeofT) / sizeofT)) (k % (nDegs * sizeofT) % sizeofT)) := by
  unfold fileData
  simp only [siteBytes_map]
  exact flat_map _ (nDegs * sizeofT) (fun p k => bytesOf .big sizeofT (D (fileCoords L p) (k / sizeofT)) (k % sizeofT))

theorem fileData_length (sizeofT nDegs : Nat) (L : Coords) (D : Coords → Nat → Nat) :
    (fileData sizeofT nDegs L D).length = L 0 * L 1 * L 2 * L 3 * (nDegs * sizeofT) := by
  rw [fileData_map]; simp

/-! ### Places in the file -/

theorem fileCoords_spec (L : Coords) (p : Nat) (hp : p < L 0 * L 1 * L 2 * L 3) : (∀ mu, fileCoords L p mu < L mu) ∧ filePlace L (fileCoords L p) = p := by
  have h1 : 0 < L 1 := by rcases Nat.eq_zero_or_pos (L 1) with h | h <;> [(rw [h] at hp; simp at hp); exact h]
  have h2 : 0 < L 2 := by rcases Nat.eq_zero_or_pos (L 2) with h | h <;> [(rw [h] at hp; simp at hp); exact h]
  have h3 : 0 < L 3 := by rcases Nat.eq_zero_or_pos (L 3) with h | h <;> [(rw [h] at hp; simp at hp); exact h]
  have e0 : fileCoords L p 0 = p / (L 1 * L 2 * L 3) := rfl
  have e1 : fileCoords L p 1 = p % L 1 := rfl
  have e2 : fileCoords L p 2 = p / L 1 % L 2 := rfl
  have e3 : fileCoords L p 3 = p / (L 1 * L 2) % L 3 := rfl
  constructor
  · intro mu
    fin_cases mu
    · show fileCoords L p 0 < L 0
      rw [e0, Nat.div_lt_iff_lt_mul (by positivity)]
      calc p < _ := hp
        _ = _ := by ring
    · show fileCoords L p 1 < L 1
      rw [e1]; exact Nat.mod_lt _ h1
    · show fileCoords L p 2 < L 2
      rw [e2]; exact Nat.mod_lt _ h2
    · show fileCoords L p 3 < L 3
      rw [e3]; exact Nat.mod_lt _ h3
  · unfold filePlace
    rw [e0, e1, e2, e3, ← Nat.div_div_eq_div_mul p (L 1 * L 2) (L 3), Nat.div_add_mod', ← Nat.div_div_eq_div_mul p (L 1) (L 2), Nat.div_add_mod', Nat.div_add_mod']

theorem glbVol_prod (g : Geo) : g.glbVol = g.L 0 * g.L 1 * g.L 2 * g.L 3 := by
  show volOfLx g.L = _
  rw [C01_volOfLx]

theorem filePlace_lt (g : Geo) (ok : g.Ok) (c : Coords) (hc : ∀ mu, c mu < g.L mu) : filePlace g.L c < g.glbVol := by
  rw [← filePlace_eq]
  exact (ildg_order g.L (L_pos ok)).lt c hc

theorem fileCoords_place (g : Geo) (ok : g.Ok) (c : Coords) (hc : ∀ mu, c mu < g.L mu) : fileCoords g.L (filePlace g.L c) = c := by
  have h := filePlace_lt g ok c hc
  obtain ⟨h1, h2⟩ := fileCoords_spec g.L (filePlace g.L c) (by rw [← glbVol_prod]; exact h)
  have o := ildg_order g.L (L_pos ok)
  have := o.left _ h1
  rw [filePlace_eq, h2, ← filePlace_eq, o.left c hc] at this
  rw [← filePlace_eq]; exact this.symm

/-! ### Endianness -/

theorem toBig (m : Endianness) (n v : Nat) (junk : Mem) (b : Nat) (hb : b < n) (t : Mem) (ht : ∀ j, j < n → t j = bytesOf m n v j) :
    fixFromNative m .big n junk t b = bytesOf .big n v b := by
  unfold fixFromNative fixEndianness
  cases m
  · rw [if_pos (by decide), C20_byteSwap _ _ _ _ hb, ht _ (by omega)]
    rfl
  · rw [if_neg (by decide), ht _ hb]

theorem fromBig (m : Endianness) (n v : Nat) (junk : Mem) (b : Nat) (hb : b < n) (t : Mem) (ht : ∀ j, j < n → t j = bytesOf .big n v j) :
    fixToNative m .big n junk t b = bytesOf m n v b := by
  unfold fixToNative fixEndianness
  cases m
  · rw [if_pos (by decide), C20_byteSwap _ _ _ _ hb, ht _ (by omega)]
    unfold bytesOf
    simp only
    rw [show n - 1 - (n - 1 - b) = b by omega]
  · rw [if_neg (by decide), ht _ hb]

theorem fixAll_at (fix : Mem → Mem) (sizeofT n : Nat) (m : Nat → Byte) (i b : Nat) (hi : i < n) (hb : b < sizeofT) :
    fixAll fix sizeofT n m (i * sizeofT + b) = fix (fun j => m (i * sizeofT + j)) b := by
  obtain ⟨h1, h2, h3⟩ := join_lt hi hb
  unfold fixAll
  rw [if_pos h1, h2, h3]

/-! ### Chunks -/

theorem chunk_length (bps : Nat) (m : Nat → Byte) (i : Nat) : (chunk bps m i).length = bps := by simp [chunk]

theorem unchunk_at (bps : Nat) (c : Nat → List Byte) (i b : Nat) (hb : b < bps) : unchunk bps c (i * bps + b) = (c i).getD b 0#8 := by
  obtain ⟨-, h2, h3⟩ := join_lt (Nat.lt_succ_self i) hb
  unfold unchunk
  rw [h2, h3]

theorem getD_map (n : Nat) (f : Nat → Byte) (k : Nat) (hk : k < n) : ((List.range n).map f).getD k 0#8 = f k := by
  simp [List.getD, hk]

/-! ### Checksum -/

theorem foldl_congr'' {β : Type} (l : List Nat) (f f' : β → Nat → β) (h : ∀ x ∈ l, ∀ b, f b x = f' b x) (b : β) : l.foldl f b = l.foldl f' b := by
  induction l generalizing b with
  | nil => rfl
  | cons a l ih => rw [List.foldl_cons, List.foldl_cons, h a (by simp), ih (fun x hx => h x (by simp [hx]))]

theorem siteCrc_congr (native : Endianness) (sizeofT nDegs : Nat) (f f' : Nat → Mem) (h : ∀ i, i < nDegs → ∀ b, b < sizeofT → f i b = f' i b) :
    siteCrc native sizeofT nDegs f = siteCrc native sizeofT nDegs f' := by
  unfold siteCrc
  congr 1
  refine foldl_congr'' _ _ _ (fun i hi c => ?_) _
  refine foldl_congr'' _ _ _ (fun b hb c => ?_) _
  have hi := List.mem_range.1 hi
  have hb := List.mem_range.1 hb
  congr 1
  unfold Nissa.Endian.mask
  split
  · exact h i hi _ (by omega)
  · exact h i hi _ hb

theorem checksum_sum (ub : BitVec 32 → BitVec 32) (native : Endianness) (sizeofT nDegs : Nat) (sched : Nat → Nat → List Nat) (hs : ∀ rk, Nissa.Reduce.Legal (sched rk))
    (g : Geo) (ok : g.Ok) (X : Nat → Nat → Coords) (fld : Nat → Nat → Nat → Mem) (k : Fin 2) :
    ildgChecksum ub native sizeofT nDegs sched g X fld k =
      ofX (∑ rk ∈ Finset.range g.nranks, ∑ i ∈ Finset.range g.locVol, toX (buff ub native sizeofT nDegs g.L (X rk i) (fld rk i) k)) := by
  unfold ildgChecksum
  rw [foldl_xor]
  exact congrArg ofX (Nissa.Reduce.C11_field_reduce (M := XorWord) g.nranks sched hs g.locVol (locVol_pos g ok)
    (fun rk ivol => toX (buff ub native sizeofT nDegs g.L (X rk ivol) (fld rk ivol) k)))

/-- the checksum computed on a field in memory is the one of the specification -/
theorem checkOf_spec (e : Env) (g : Geo) (ok : g.Ok) (he : EnvOk e g) (hV : g.glbVol < 2 ^ 32) (X : Nat → Nat → Coords) (hX : CoordTable g X)
    (sizeofT nDegs : Nat) (D : Coords → Nat → Nat) (m : Memory) (hm : InMemory e.native sizeofT nDegs g X D m) (k : Fin 2) :
    checkOf e sizeofT nDegs g X m k = (specChecksum sizeofT nDegs g.L D k).toNat := by
  unfold checkOf
  rw [← C21_checksum_spec e.shift32 he.shift e.native sizeofT nDegs e.sched he.sched g ok hV X hX D k,
    checksum_sum _ _ _ _ _ he.sched g ok, checksum_sum _ _ _ _ _ he.sched g ok]
  congr 2
  refine Finset.sum_congr rfl (fun rk hr => Finset.sum_congr rfl (fun i hi => ?_))
  have hr := Finset.mem_range.1 hr
  have hi := Finset.mem_range.1 hi
  congr 1
  unfold buff
  rw [siteCrc_congr e.native sizeofT nDegs (degOf sizeofT nDegs m rk i) _ (fun d hd b hb => hm rk i d b hr hi hd hb)]

end Nissa.FieldIo
