import Mathlib.Data.Nat.Basic
import Mathlib.Data.List.Basic
import Mathlib.Tactic.NormNum
import Mathlib.Tactic.Linarith
import Mathlib.Tactic.Ring

set_option linter.all false

/-! # Block sizes of the multigrid of QUDA, in one direction (`/repo/src/base/quda_bridge.cpp:765-832`)

The four directions are treated independently of each other. -/

namespace Nissa.Quda

/-- automatic block size.  `/repo/src/base/quda_bridge.cpp:806-818` -/
def autoBlock (extent : Nat) : Nat :=
  let even_block_size := if extent < 16 then 2 else 4
  if extent ≤ 24 ∧ extent % 3 = 0 then 3
  else if extent % even_block_size = 0 then even_block_size
  else 1

/-- sites which remain at a level, given the block sizes of the previous ones (last first).  `/repo/src/base/quda_bridge.cpp:779-783` -/
def extentAt (size : Nat) : List Nat → Nat
  | [] => size
  | b :: prev => extentAt size prev / b

/-- `geo_block_size` of a level; `ext` is the one of the input, 0 if not given.  `/repo/src/base/quda_bridge.cpp:785-820` -/
def blockAt (nlevels level ext extent : Nat) : Nat :=
  if level = nlevels - 1 then 1 else if ext ≠ 0 then ext else autoBlock extent

/-- the levels from `level` on: `n` levels remain, `prev` are the sizes of the previous ones, last first; `none`: CRASH.
`/repo/src/base/quda_bridge.cpp:761-832` -/
def blocksFrom (size nlevels : Nat) (ext : Nat → Nat) : Nat → Nat → List Nat → Option (List Nat)
  | 0, _, prev => some prev
  | n + 1, level, prev =>
    let extent := extentAt size prev
    let b := blockAt nlevels level (ext level) extent
    if level + 1 < nlevels ∧ extent / b % 2 ≠ 0 then none
    else blocksFrom size nlevels ext n (level + 1) (b :: prev)

/-- all the levels, the finest first.  `size` is `glbSize` in the direction -/
def blocks (size nlevels : Nat) (ext : Nat → Nat) : Option (List Nat) := (blocksFrom size nlevels ext nlevels 0 []).map List.reverse

/-! ## Specification -/

/-- Blocking a lattice of `size` sites with the sizes of the list, the finest first, is possible: at each level the blocks tile the
lattice, and the coarser lattice has an even number of sites; the coarsest lattice is not blocked. -/
def Tiles : Nat → List Nat → Prop
  | _, [] => False
  | _, [b] => b = 1
  | size, b :: l => 0 < b ∧ b ∣ size ∧ 2 ∣ size / b ∧ Tiles (size / b) l

/-- the size of the coarsest lattice -/
def coarsest : Nat → List Nat → Nat
  | size, [] => size
  | size, b :: l => coarsest (size / b) l

/-! ## Proofs -/

theorem autoBlock_dvd (e : Nat) : 0 < autoBlock e ∧ autoBlock e ∣ e ∧ autoBlock e ≤ 4 := by
  unfold autoBlock
  dsimp only
  by_cases h3 : e ≤ 24 ∧ e % 3 = 0
  · rw [if_pos h3]; exact ⟨by omega, Nat.dvd_of_mod_eq_zero h3.2, by omega⟩
  · rw [if_neg h3]
    by_cases h : e < 16
    · rw [if_pos h]
      by_cases h2 : e % 2 = 0
      · rw [if_pos h2]; exact ⟨by omega, Nat.dvd_of_mod_eq_zero h2, by omega⟩
      · rw [if_neg h2]; exact ⟨by omega, one_dvd _, by omega⟩
    · rw [if_neg h]
      by_cases h2 : e % 4 = 0
      · rw [if_pos h2]; exact ⟨by omega, Nat.dvd_of_mod_eq_zero h2, by omega⟩
      · rw [if_neg h2]; exact ⟨by omega, one_dvd _, by omega⟩

theorem autoBlock_two (k : Nat) (hk : 2 ≤ k) : ∃ k', 1 ≤ k' ∧ k ≤ k' + 2 ∧ 2 ^ k / autoBlock (2 ^ k) = 2 ^ k' := by
  have h3 : ∀ n, 2 ^ n % 3 ≠ 0 := by
    intro n
    induction n with
    | zero => decide
    | succ n ih => rw [pow_succ]; omega
  unfold autoBlock
  dsimp only
  rw [if_neg (by intro h; exact h3 k h.2)]
  obtain ⟨m, rfl⟩ : ∃ m, k = m + 2 := ⟨k - 2, by omega⟩
  by_cases h : 2 ^ (m + 2) < 16
  · rw [if_pos h, if_pos (by rw [pow_succ]; omega)]
    exact ⟨m + 1, by omega, by omega, by rw [pow_succ]; omega⟩
  · rw [if_neg h, if_pos (by rw [pow_add]; omega)]
    refine ⟨m, ?_, by omega, by rw [pow_add]; omega⟩
    by_contra hm
    have : m = 0 := by omega
    subst this
    simp at h

/-- what the code does, level by level -/
def Chosen (ext : Nat → Nat) : Nat → Nat → List Nat → Prop
  | _, _, [] => False
  | _, _, [b] => b = 1
  | size, level, b :: l => b = (if ext level ≠ 0 then ext level else autoBlock size) ∧ size / b % 2 = 0 ∧ Chosen ext (size / b) (level + 1) l

theorem blocksFrom_spec (size nlevels : Nat) (ext : Nat → Nat) :
    ∀ (n level : Nat) (prev out : List Nat), level + (n + 1) = nlevels →
      (blocksFrom size nlevels ext (n + 1) level prev = some out ↔
        ∃ l, out = l.reverse ++ prev ∧ l.length = n + 1 ∧ Chosen ext (extentAt size prev) level l)
  | 0, level, prev, out, h => by
    unfold blocksFrom
    dsimp only
    have hl : level = nlevels - 1 := by omega
    have hb : blockAt nlevels level (ext level) (extentAt size prev) = 1 := by unfold blockAt; rw [if_pos hl]
    rw [hb, if_neg (by omega)]
    unfold blocksFrom
    constructor
    · intro h; exact ⟨[1], by simpa using h.symm, rfl, rfl⟩
    · rintro ⟨l, h1, h2, h3⟩
      match l, h2, h3 with
      | [b], _, h3 => change b = 1 at h3; rw [h1, h3]; rfl
  | n + 1, level, prev, out, h => by
    rw [blocksFrom]
    have hl : level ≠ nlevels - 1 := by omega
    have hb : blockAt nlevels level (ext level) (extentAt size prev) =
        if ext level ≠ 0 then ext level else autoBlock (extentAt size prev) := by unfold blockAt; rw [if_neg hl]
    rw [hb]
    generalize hB : (if ext level ≠ 0 then ext level else autoBlock (extentAt size prev)) = b
    have ih := blocksFrom_spec size nlevels ext n (level + 1) (b :: prev) out (by omega)
    by_cases hm : extentAt size prev / b % 2 = 0
    · rw [if_neg (by simp [hm]), ih]
      constructor
      · rintro ⟨l, h1, h2, h3⟩
        refine ⟨b :: l, by rw [h1]; simp, by simp [h2], ?_⟩
        cases l with
        | nil => exact absurd h3 (by simp [Chosen])
        | cons c l => exact ⟨hB.symm, hm, h3⟩
      · rintro ⟨l, h1, h2, h3⟩
        match l, h2, h3 with
        | c :: d :: l, h2, h3 =>
          obtain ⟨q1, q2, q3⟩ := h3
          rw [hB] at q1
          subst q1
          exact ⟨d :: l, by rw [h1]; simp, by simpa using h2, q3⟩
    · rw [if_pos ⟨by omega, hm⟩]
      constructor
      · intro h; cases h
      · rintro ⟨l, h1, h2, h3⟩
        match l, h2, h3 with
        | c :: d :: l, h2, h3 =>
          obtain ⟨q1, q2, q3⟩ := h3
          rw [hB] at q1
          subst q1
          exact absurd q2 hm

theorem blocks_spec (size nlevels : Nat) (hn : 0 < nlevels) (ext : Nat → Nat) (out : List Nat) :
    blocks size nlevels ext = some out ↔ out.length = nlevels ∧ Chosen ext size 0 out := by
  obtain ⟨n, rfl⟩ : ∃ n, nlevels = n + 1 := ⟨nlevels - 1, by omega⟩
  unfold blocks
  constructor
  · intro h
    obtain ⟨r, h1, h2⟩ := Option.map_eq_some_iff.1 h
    obtain ⟨l, k1, k2, k3⟩ := (blocksFrom_spec size (n + 1) ext n 0 [] r (by omega)).1 h1
    have : out = l := by rw [← h2, k1]; simp
    subst this
    exact ⟨k2, k3⟩
  · rintro ⟨h1, h2⟩
    refine Option.map_eq_some_iff.2 ⟨out.reverse, ?_, by simp⟩
    exact (blocksFrom_spec size (n + 1) ext n 0 [] _ (by omega)).2 ⟨out, by simp, h1, h2⟩

/-- The sizes given in the input divide the extents of their level. -/
def Divide (ext : Nat → Nat) : Nat → Nat → List Nat → Prop
  | _, _, [] => True
  | size, level, b :: l => (ext level ≠ 0 → ext level ∣ size) ∧ Divide ext (size / b) (level + 1) l

theorem tiles_of_chosen (ext : Nat → Nat) : ∀ (l : List Nat) (size level : Nat), Divide ext size level l → Chosen ext size level l → Tiles size l
  | [], _, _, _, h => h
  | [b], _, _, _, h => h
  | b :: c :: l, size, level, hd, h => by
    obtain ⟨h1, h2, h3⟩ := h
    refine ⟨?_, ?_, Nat.dvd_of_mod_eq_zero h2, tiles_of_chosen ext (c :: l) _ _ hd.2 h3⟩
    · rw [h1]; split
      · next h => exact Nat.pos_of_ne_zero h
      · exact (autoBlock_dvd size).1
    · rw [h1]; split
      · next h => exact hd.1 h
      · exact (autoBlock_dvd size).2.1

theorem divide_zero : ∀ (l : List Nat) (size level : Nat), Divide (fun _ => 0) size level l
  | [], _, _ => trivial
  | b :: l, _, _ => ⟨fun h => absurd rfl h, divide_zero l _ _⟩

/-- C81: block sizes chosen automatically: there is one per level, and they can be used to block a lattice of the whole size. -/
theorem C81_auto_partial (size nlevels : Nat) (hn : 0 < nlevels) (out : List Nat) (h : blocks size nlevels (fun _ => 0) = some out) :
    out.length = nlevels ∧ Tiles size out := by
  obtain ⟨h1, h2⟩ := (blocks_spec size nlevels hn _ out).1 h
  exact ⟨h1, tiles_of_chosen _ _ _ _ (divide_zero _ _ _) h2⟩

/-- C81: the same for the sizes given by the user, if they divide the extents; they are not changed. -/
theorem C81_given_partial (size nlevels : Nat) (hn : 0 < nlevels) (ext : Nat → Nat) (out : List Nat) (h : blocks size nlevels ext = some out)
    (hd : Divide ext size 0 out) :
    out.length = nlevels ∧ Tiles size out ∧ ∀ k, k + 1 < nlevels → ext k ≠ 0 → out[k]? = some (ext k) := by
  obtain ⟨h1, h2⟩ := (blocks_spec size nlevels hn ext out).1 h
  refine ⟨h1, tiles_of_chosen _ _ _ _ hd h2, ?_⟩
  have key : ∀ (l : List Nat) (size level : Nat), Chosen ext size level l → ∀ k, k + 1 < l.length → ext (level + k) ≠ 0 → l[k]? = some (ext (level + k)) := by
    intro l
    induction l with
    | nil => intro _ _ h; exact absurd h (by simp [Chosen])
    | cons b l ih =>
      intro size level h k hk he
      cases l with
      | nil => simp at hk
      | cons c l =>
        obtain ⟨q1, q2, q3⟩ := h
        cases k with
        | zero => rw [Nat.add_zero] at he; rw [q1, if_pos he]; rfl
        | succ k =>
          have := ih _ _ q3 k (by simp at hk ⊢; omega) (by rw [show level + 1 + k = level + (k + 1) by omega]; exact he)
          rw [show level + 1 + k = level + (k + 1) by omega] at this
          simpa using this
  intro k hk he
  have := key out size 0 h2 k (by omega) (by simpa using he)
  simpa using this

theorem accepts_from : ∀ (n k level : Nat), 2 * n + 1 ≤ k → ∃ l, l.length = n + 1 ∧ Chosen (fun _ => 0) (2 ^ k) level l
  | 0, _, _, _ => ⟨[1], rfl, rfl⟩
  | n + 1, k, level, h => by
    obtain ⟨k', h1, h2, h3⟩ := autoBlock_two k (by omega)
    obtain ⟨l, l1, l2⟩ := accepts_from n k' (level + 1) (by omega)
    refine ⟨autoBlock (2 ^ k) :: l, by simp [l1], ?_⟩
    match l, l1, l2 with
    | c :: l, l1, l2 =>
      refine ⟨by simp, ?_, by rw [h3]; exact l2⟩
      rw [h3]
      obtain ⟨m, rfl⟩ : ∃ m, k' = m + 1 := ⟨k' - 1, by omega⟩
      rw [pow_succ]; omega

/-- C81: a power of two which is large enough is accepted, for any number of levels. -/
theorem C81_accepts (k nlevels : Nat) (hn : 0 < nlevels) (hk : 2 * nlevels ≤ k + 1) : ∃ out, blocks (2 ^ k) nlevels (fun _ => 0) = some out := by
  obtain ⟨l, h1, h2⟩ := accepts_from (nlevels - 1) k 0 (by omega)
  exact ⟨l, (blocks_spec _ _ hn _ _).2 ⟨by omega, h2⟩⟩

/-- C81: the sizes have to be those of the lattice of a rank, but the size of the whole lattice is used: with 16 sites on 2 ranks the
coarsest lattice of a rank has one site, with 48 on 4 it has already 3 at the second level, and with 16 sites on 8 ranks the blocks are larger than the
lattice of a rank. -/
theorem C81_violated_local :
    (blocks 16 3 (fun _ => 0) = some [4, 2, 1] ∧ ¬ Tiles (16 / 2) [4, 2, 1] ∧ coarsest (16 / 2) [4, 2, 1] = 1) ∧
    (blocks 48 2 (fun _ => 0) = some [4, 1] ∧ ¬ Tiles (48 / 4) [4, 1] ∧ coarsest (48 / 4) [4, 1] = 3) ∧
    (blocks 16 2 (fun _ => 0) = some [4, 1] ∧ ¬ (4 ∣ 16 / 8) ∧ coarsest (16 / 8) [4, 1] = 0) := by
  refine ⟨⟨by decide, ?_, by decide⟩, ⟨by decide, ?_, by decide⟩, by decide, by decide, by decide⟩
  · rintro ⟨-, -, -, -, -, h, -⟩; revert h; decide
  · rintro ⟨-, -, h, -⟩; revert h; decide

/-- C81: a size given by the user which does not divide the extent is accepted. -/
theorem C81_violated_given : blocks 10 2 (fun _ => 4) = some [4, 1] ∧ ¬ Tiles 10 [4, 1] := by
  refine ⟨by decide, ?_⟩
  rintro ⟨-, h, -⟩; revert h; decide

/-- C81: if the ranks are not split in the direction, or more generally if the blocks tile the lattice of a rank, all the ranks can be
tiled: what is missing is only the check on the local size. -/
theorem C81_one_rank_partial (L R nlevels : Nat) (hn : 0 < nlevels) (hR : R = 1) (out : List Nat) (h : blocks L nlevels (fun _ => 0) = some out) :
    Tiles (L / R) out := by
  subst hR; rw [Nat.div_one]; exact (C81_auto_partial L nlevels hn out h).2

/-- cases which meet the hypotheses: the sizes of common lattices -/
example : blocks 32 3 (fun _ => 0) = some [4, 2, 1] ∧ blocks 48 3 (fun _ => 0) = some [4, 3, 1] ∧ blocks 96 3 (fun _ => 0) = some [4, 3, 1] ∧
    blocks 24 3 (fun _ => 0) = some [3, 2, 1] ∧ blocks 64 3 (fun k => if k = 0 then 8 else 0) = some [8, 2, 1] ∧
    blocks 20 2 (fun _ => 0) = none := by decide

end Nissa.Quda
