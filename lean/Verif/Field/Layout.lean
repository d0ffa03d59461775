/-
Model of the addressing of field data: /repo/src/base/field.hpp:405-415 (index), 455-460, 474-498 and 1832-1903 (SubscribedField).
-/
import Mathlib.Tactic.Ring
import Mathlib.Data.List.Basic

namespace Nissa.Field

/-- AoS branch of `FieldData::index`, field.hpp:410-411 -/
def indexCPU (nInternalDegs site deg : Nat) : Nat := deg + nInternalDegs * site

/-- SoA branch of `FieldData::index` with unbounded integers, field.hpp:412-413 -/
def indexGPU (externalSize site deg : Nat) : Nat := site + externalSize * deg

/-- conversion to `int` (two's complement wrapping, what the usual compilers do both for the narrowing conversion and for the
overflow, which formally is undefined) -/
def toInt32 (x : Int) : Int := (x + 2 ^ 31) % 2 ^ 32 - 2 ^ 31

/-- SoA branch as compiled: `site` is int64_t, `internalDeg` and `externalSize` are `const int&`, hence the 64 bit external size
of the field is narrowed and the product is made on 32 bits (field.hpp:406-408,413) -/
def indexGPU32 (externalSize site deg : Nat) : Int := site + toInt32 (toInt32 externalSize * deg)

/-- Byte address reached by the chain `f[site][i0][i1]...` starting from the null pointer: each subscript moves by the size of the
remaining array, field.hpp:1876-1886; `dims` are the extents of `Comps`, `s` the size of `Fund` -/
def subscriptAddr (s : Nat) : List Nat → List Nat → Nat
  | _ :: ds, i :: is => i * (ds.prod * s) + subscriptAddr s ds is
  | _, _ => 0

/-- `eval`: internalDeg=(size_t)(&ptr[i])/sizeof(Fund), field.hpp:1846-1852 -/
def subscriptDeg (s : Nat) (dims is : List Nat) : Nat := subscriptAddr s dims is / s

/-- The internal degrees touched by `SubscribedField::operator+=` (field.hpp:1862-1871) on `f[site]`, where the `P` of the subscribed
field has extents `dimsP` (i.e. `Comps` without its first extent): eval(i) for i<nInternalDegs, each moving by a whole P -/
def selfOpDegs (s nInternalDegs : Nat) (dimsP : List Nat) : List Nat :=
  (List.range nInternalDegs).map (fun i => i * (dimsP.prod * s) / s)

/-! ### C09 -/

/-- C09, AoS layout: offsets are below sites*degs, collision free, and all used -/
theorem C09_cpu_bijective (n sites : Nat) :
    (∀ site deg, site < sites → deg < n → indexCPU n site deg < sites * n) ∧
    (∀ s d s' d', d < n → d' < n → indexCPU n s d = indexCPU n s' d' → s = s' ∧ d = d') ∧
    (∀ k, k < sites * n → ∃ site deg, site < sites ∧ deg < n ∧ indexCPU n site deg = k) := by
  refine ⟨fun site deg hs hd => ?_, fun s d s' d' hd hd' h => ?_, fun k hk => ?_⟩
  · unfold indexCPU
    calc deg + n * site < n + n * site := by omega
      _ = (site + 1) * n := by ring
      _ ≤ sites * n := Nat.mul_le_mul_right _ hs
  · unfold indexCPU at h
    have h1 : d = d' := by
      have := congrArg (· % n) h
      simpa [Nat.add_mul_mod_self_left, Nat.mod_eq_of_lt hd, Nat.mod_eq_of_lt hd'] using this
    subst h1
    refine ⟨?_, rfl⟩
    have : n * s = n * s' := by omega
    exact Nat.eq_of_mul_eq_mul_left (by omega) this
  · have hn : 0 < n := by
      rcases Nat.eq_zero_or_pos n with h | h
      · subst h; omega
      · exact h
    refine ⟨k / n, k % n, ?_, Nat.mod_lt _ hn, ?_⟩
    · exact (Nat.div_lt_iff_lt_mul hn).2 hk
    · unfold indexCPU; have := Nat.mod_add_div k n; omega

/-- C09, SoA layout (ideal integers) -/
theorem C09_gpu_bijective (n ext : Nat) :
    (∀ site deg, site < ext → deg < n → indexGPU ext site deg < ext * n) ∧
    (∀ s d s' d', s < ext → s' < ext → indexGPU ext s d = indexGPU ext s' d' → s = s' ∧ d = d') ∧
    (∀ k, k < ext * n → ∃ site deg, site < ext ∧ deg < n ∧ indexGPU ext site deg = k) := by
  have key := C09_cpu_bijective ext n
  refine ⟨fun site deg hs hd => ?_, fun s d s' d' hs hs' h => ?_, fun k hk => ?_⟩
  · rw [Nat.mul_comm]; exact key.1 deg site hd hs
  · have := key.2.1 d s d' s' hs hs' h; exact ⟨this.2, this.1⟩
  · obtain ⟨a, b, h1, h2, h3⟩ := key.2.2 k (by rw [Nat.mul_comm]; exact hk)
    exact ⟨b, a, h2, h1, h3⟩

theorem toInt32_id {x : Int} (h1 : -2 ^ 31 ≤ x) (h2 : x < 2 ^ 31) : toInt32 x = x := by
  unfold toInt32; rw [Int.emod_eq_of_lt (by omega) (by omega)]; omega

/-- C09: the compiled SoA index equals the ideal one whenever the number of elements of the field fits in 31 bits -/
theorem C09_gpu32_exact (n ext site deg : Nat) (hn : deg < n) (hs : site < ext) (h : ext * n < 2 ^ 31) :
    indexGPU32 ext site deg = indexGPU ext site deg := by
  have h1 : ext * 1 ≤ ext * n := Nat.mul_le_mul_left _ (by omega)
  have h2 : ext * deg ≤ ext * n := Nat.mul_le_mul_left _ (by omega)
  unfold indexGPU32 indexGPU
  rw [toInt32_id (x := (ext : Int)) (by omega) (by omega), toInt32_id]
  · push_cast; rfl
  · have : (0 : Int) ≤ (ext : Int) * deg := Int.mul_nonneg (Int.natCast_nonneg _) (Int.natCast_nonneg _)
    omega
  · have : ((ext * deg : Nat) : Int) < 2 ^ 31 := by omega
    push_cast at this; exact this

/-- C09 fails beyond: a field of 4 links of 3x3 complex numbers (72 degrees) on 2^25 sites has degrees whose compiled offset is negative -/
theorem C09_gpu32_violated : indexGPU32 (2 ^ 25) 0 64 < 0 ∧ (64 < 72) ∧ indexGPU (2 ^ 25) 0 64 < 2 ^ 25 * 72 := by decide

/-- C09: subscripting component by component in the SoA layout reaches the row-major internal index, the one of the AoS layout -/
theorem C09_subscript_rowmajor (s : Nat) (hs : 0 < s) : ∀ (dims is : List Nat), dims.length = is.length →
    subscriptDeg s dims is = (List.zip dims is).foldl (fun acc p => acc * p.1 + p.2) 0 := by
  have key : ∀ (dims is : List Nat), dims.length = is.length → ∀ a,
      a * dims.prod * s + subscriptAddr s dims is = (List.zip dims is).foldl (fun acc p => acc * p.1 + p.2) a * s := by
    intro dims
    induction dims with
    | nil => intro is h a; simp [subscriptAddr]
    | cons d ds ih =>
      intro is h a
      cases is with
      | nil => simp at h
      | cons i is =>
        simp only [List.zip_cons_cons, List.foldl_cons, subscriptAddr, List.prod_cons]
        rw [← ih is (by simpa using h)]
        ring
  intro dims is h
  have := key dims is h 0
  unfold subscriptDeg
  rw [Nat.zero_mul, Nat.zero_mul, Nat.zero_add] at this
  rw [this, Nat.mul_div_cancel _ hs]

example : subscriptDeg 8 [4, 3, 3, 2] [1, 2, 0, 1] = 31 ∧ ([4, 3, 3, 2] : List Nat).prod = 72 := by decide

/-- C09 fails for the `+=`, `-=` operators of a subscribed SoA field whenever what remains after the first subscript is itself an array:
on a 3x3 complex matrix field, `f[site]+=g[site]` touches internal degree 102, out of the 18 of a site. -/
theorem C09_subscribed_selfop_violated : ¬ ∀ d ∈ selfOpDegs 8 18 [3, 2], d < 18 := by decide

/-- ... while it is right when what remains is a single number -/
theorem C09_subscribed_selfop_flat (s n : Nat) (hs : 0 < s) : selfOpDegs s n [] = List.range n := by
  unfold selfOpDegs
  simp [Nat.mul_div_cancel _ hs]

end Nissa.Field
