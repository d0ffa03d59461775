/-
C82: averaging a gathered vector over the reflections and over the permutations of the spatial axes.
-/
import Verif.Operations.Symmetrize
import Mathlib.Tactic.Ring
import Mathlib.Tactic.FinCases
import Mathlib.Tactic.FieldSimp
import Mathlib.Tactic.NormNum
import Mathlib.Tactic.IntervalCases
import Mathlib.Algebra.CharZero.Defs
import Mathlib.Algebra.Field.Rat
import Mathlib.Tactic.Tauto

set_option linter.all false

namespace Nissa.Symm
open Nissa.Lx

variable {K : Type} [Field K]

/-! ### averaging one list -/

theorem foldl_add_sum (f : Nat → K) : ∀ (l : List Nat) (b : K), l.foldl (fun b s => b + f s) b = b + (l.map f).sum
  | [], b => by simp
  | a :: l, b => by simp [foldl_add_sum f l, add_assoc]

theorem avgBuf_eq (vec : Nat → K) (sites : List Nat) (dps id : Nat) :
    avgBuf vec sites dps id = (sites.map fun s => vec (dps * s + id)).sum / (sites.length : K) := by
  cases sites with
  | nil => simp [avgBuf]
  | cons s0 rest => simp [avgBuf, foldl_add_sum (fun s => vec (dps * s + id))]

theorem copy_at (buf : Nat → K) (dps : Nat) (vec : Nat → K) (site s id : Nat) (hid : id < dps) :
    copyTo buf dps vec site (dps * s + id) = if s = site then buf id else vec (dps * s + id) := by
  unfold copyTo
  by_cases h : s = site
  · subst h; simp [hid]
  · rw [if_neg h, if_neg]
    rintro ⟨h1, h2⟩
    rcases Nat.lt_or_gt_of_ne h with h | h
    · have := Nat.mul_le_mul_left dps (Nat.succ_le_of_lt h); rw [Nat.mul_succ] at this; omega
    · have := Nat.mul_le_mul_left dps (Nat.succ_le_of_lt h); rw [Nat.mul_succ] at this; omega

theorem copies_at (buf : Nat → K) (dps s id : Nat) (hid : id < dps) : ∀ (l : List Nat) (vec : Nat → K),
    l.foldl (copyTo buf dps) vec (dps * s + id) = if s ∈ l then buf id else vec (dps * s + id)
  | [], vec => by simp
  | a :: l, vec => by
    rw [List.foldl_cons, copies_at buf dps s id hid l, copy_at _ _ _ _ _ _ hid]
    by_cases h1 : s ∈ l <;> by_cases h2 : s = a <;> simp [h1, h2]

/-- C82: after averaging a list of sites, each of them holds, component by component, the arithmetic mean of the
values the listed sites had, and no other site changes. -/
theorem C82_average (dps : Nat) (vec : Nat → K) (sites : List Nat) (s id : Nat) (hid : id < dps) :
    average dps vec sites (dps * s + id) =
      if s ∈ sites then (sites.map fun t => vec (dps * t + id)).sum / (sites.length : K) else vec (dps * s + id) := by
  unfold average
  rw [copies_at _ _ _ _ hid, avgBuf_eq]

/-! ### a sequence of averages over disjoint lists -/

theorem fold_none (dps s id : Nat) (hid : id < dps) : ∀ (ls : List (List Nat)) (vec : Nat → K), (∀ l ∈ ls, s ∉ l) →
    ls.foldl (average dps) vec (dps * s + id) = vec (dps * s + id)
  | [], vec, h => rfl
  | l :: ls, vec, h => by
    rw [List.foldl_cons, fold_none dps s id hid ls _ (fun m hm => h m (by simp [hm])), C82_average dps vec l s id hid,
      if_neg (h l (by simp))]

theorem fold_one (dps s id : Nat) (hid : id < dps) (pre post : List (List Nat)) (l : List Nat) (vec : Nat → K) (hs : s ∈ l)
    (hpre : ∀ m ∈ pre, ∀ t ∈ l, t ∉ m) (hpost : ∀ m ∈ post, s ∉ m) :
    (pre ++ l :: post).foldl (average dps) vec (dps * s + id) =
      (l.map fun t => vec (dps * t + id)).sum / (l.length : K) := by
  rw [List.foldl_append, List.foldl_cons, fold_none dps s id hid post _ hpost, C82_average dps _ l s id hid, if_pos hs]
  congr 2
  apply List.map_congr_left
  intro t ht
  exact fold_none dps t id hid pre vec (fun m hm => hpre m hm t ht)

theorem fold_orbits {P : Type} (dps : Nat) (pts : List P) (hnd : pts.Nodup) (orb : P → List Nat) (vec : Nat → K)
    (hdis : ∀ p ∈ pts, ∀ q ∈ pts, ∀ t, t ∈ orb p → t ∈ orb q → p = q) (p : P) (hp : p ∈ pts) (s id : Nat) (hid : id < dps) (hs : s ∈ orb p) :
    pts.foldl (fun v x => average dps v (orb x)) vec (dps * s + id) =
      ((orb p).map fun t => vec (dps * t + id)).sum / ((orb p).length : K) := by
  obtain ⟨pre, post, rfl⟩ := List.append_of_mem hp
  have e : ∀ (l : List P) (v : Nat → K), l.foldl (fun v x => average dps v (orb x)) v = (l.map orb).foldl (average dps) v := by
    intro l v; rw [List.foldl_map]
  rw [e, List.map_append, List.map_cons]
  rw [List.nodup_append] at hnd
  obtain ⟨n1, n2, n3⟩ := hnd
  apply fold_one dps s id hid _ _ _ _ hs
  · intro m hm t ht htm
    obtain ⟨q, hq, rfl⟩ := List.mem_map.1 hm
    have := hdis p hp q (by simp [hq]) t ht htm
    subst this
    exact n3 p hq p (by simp) rfl
  · intro m hm hsm
    obtain ⟨q, hq, rfl⟩ := List.mem_map.1 hm
    have := hdis p hp q (by simp [hq]) s hs hsm
    subst this
    exact (List.nodup_cons.1 n2).1 hq

theorem fold_outside {P : Type} (dps : Nat) (pts : List P) (orb : P → List Nat) (vec : Nat → K) (s id : Nat) (hid : id < dps)
    (hs : ∀ p ∈ pts, s ∉ orb p) :
    pts.foldl (fun v x => average dps v (orb x)) vec (dps * s + id) = vec (dps * s + id) := by
  have e : pts.foldl (fun v x => average dps v (orb x)) vec = (pts.map orb).foldl (average dps) vec := by rw [List.foldl_map]
  rw [e]
  apply fold_none dps s id hid
  intro l hl
  obtain ⟨q, hq, rfl⟩ := List.mem_map.1 hl
  exact hs q hq

/-! ### specification -/

/-- the site opposite to `x` on a circle of `n` sites: the representative of `-x` -/
def opp (n x : Nat) : Nat := (n - x) % n

/-- `y` with the coordinates listed in `A` (among the first three directions) replaced by the opposite ones -/
def reflect (s y : Coords) (A : Fin 3 → Bool) : Coords :=
  ![if A 0 then opp (s 0) (y 0) else y 0, if A 1 then opp (s 1) (y 1) else y 1, if A 2 then opp (s 2) (y 2) else y 2, y 3]

/-- `y` with its spatial coordinates permuted -/
def permute (y : Coords) (π : Equiv.Perm (Fin 3)) : Coords :=
  ![y 0, y (π 0).succ, y (π 1).succ, y (π 2).succ]

/-- the value of component `id` of the gathered vector at the site of coordinates `y` -/
def at' (s : Coords) (dps : Nat) (vec : Nat → K) (y : Coords) (id : Nat) : K := vec (dps * lxOfCoord y s + id)

/-! ### mirrors -/

theorem mem_mirrPoints (TH LH : Nat) (x : Coords) :
    x ∈ mirrPoints TH LH ↔ x 0 ≤ TH ∧ x 1 ≤ LH ∧ x 2 ≤ LH ∧ x 3 ≤ LH := by
  unfold mirrPoints
  simp only [List.mem_flatMap, List.mem_map, List.mem_range]
  constructor
  · rintro ⟨a, ha, b, hb, c, hc, d, hd, rfl⟩
    exact ⟨Nat.lt_succ_iff.1 ha, Nat.lt_succ_iff.1 hb, Nat.lt_succ_iff.1 hc, Nat.lt_succ_iff.1 hd⟩
  · rintro ⟨h0, h1, h2, h3⟩
    exact ⟨x 0, by omega, x 1, by omega, x 2, by omega, x 3, by omega, by ext i; fin_cases i <;> rfl⟩

theorem nodup_nest {α β : Type} (l : List α) (f : α → List β) (hl : l.Nodup) (hf : ∀ a ∈ l, (f a).Nodup)
    (hd : ∀ a ∈ l, ∀ b ∈ l, ∀ x, x ∈ f a → x ∈ f b → a = b) : (l.flatMap f).Nodup := by
  rw [List.nodup_flatMap]
  refine ⟨hf, ?_⟩
  have : l.Pairwise (fun a b => a ≠ b) := hl
  refine List.Pairwise.imp_of_mem ?_ this
  intro a b ha hb hab x hxa hxb
  exact hab (hd a ha b hb x hxa hxb)

theorem nodup_mirrPoints (TH LH : Nat) : (mirrPoints TH LH).Nodup := by
  unfold mirrPoints
  refine nodup_nest _ _ List.nodup_range (fun a _ => nodup_nest _ _ List.nodup_range (fun b _ => nodup_nest _ _ List.nodup_range
    (fun c _ => ?_) ?_) ?_) ?_
  · refine (List.nodup_map_iff_inj_on List.nodup_range).2 ?_
    intro d _ e _ h
    exact congrFun h 3
  all_goals
    intro p _ q _ x hx hy
    simp only [List.mem_flatMap, List.mem_map] at hx hy
  · obtain ⟨_, _, rfl⟩ := hx; obtain ⟨_, _, h⟩ := hy; exact (congrFun h 2).symm
  · obtain ⟨_, _, _, _, rfl⟩ := hx; obtain ⟨_, _, _, _, h⟩ := hy; exact (congrFun h 1).symm
  · obtain ⟨_, _, _, _, _, _, rfl⟩ := hx; obtain ⟨_, _, _, _, _, _, h⟩ := hy; exact (congrFun h 0).symm

theorem opp_lt {n : Nat} (hn : 0 < n) (x : Nat) : opp n x < n := Nat.mod_lt _ hn

theorem opp_cases {n x : Nat} (h : x < n) : (x = 0 ∧ opp n x = 0) ∨ (0 < x ∧ opp n x = n - x) := by
  unfold opp
  rcases Nat.eq_zero_or_pos x with rfl | hx
  · left; simp
  · right; exact ⟨hx, Nat.mod_eq_of_lt (by omega)⟩

theorem opp_opp {n x : Nat} (h : x < n) : opp n (opp n x) = x := by
  rcases opp_cases h with ⟨h1, h2⟩ | ⟨h1, h2⟩
  · rw [h2]; rcases opp_cases (n := n) (x := 0) (by omega) with ⟨_, h3⟩ | ⟨h3, _⟩ <;> omega
  · rw [h2]; rcases opp_cases (n := n) (x := n - x) (by omega) with ⟨h3, _⟩ | ⟨_, h3⟩ <;> omega

/-- the bits of `imirr` for the first three directions -/
def bitsOf (imirr : Nat) : Fin 3 → Bool := fun i => imirr.testBit i.val

theorem mirr_reflect (s x : Coords) (imirr : Nat) (h : imirr < 8) : mirrCoord s x imirr = reflect s x (bitsOf imirr) := by
  have h3 : imirr.testBit 3 = false := Nat.testBit_lt_two_pow (by omega)
  funext mu
  fin_cases mu
  · rfl
  · rfl
  · rfl
  · show (if imirr.testBit 3 then _ else _) = _
    rw [h3]; rfl

theorem bits_list (f : (Fin 3 → Bool) → K) :
    ((List.range 8).map fun i => f (bitsOf i)).sum = ∑ A : Fin 3 → Bool, f A := by
  rw [← Equiv.sum_comp (Equiv.ofBijective (fun i : Fin 8 => bitsOf i.val) (by decide)) f, Fin.sum_univ_eight]
  simp [List.range, List.range.loop, Equiv.ofBijective_apply]
  ring

theorem perm_list (g : Fin 3 → Fin 3 → Fin 3 → K) :
    g 0 1 2 + (g 1 2 0 + (g 2 0 1 + (g 0 2 1 + (g 2 1 0 + g 1 0 2)))) = ∑ π : Equiv.Perm (Fin 3), g (π 0) (π 1) (π 2) := by
  have inj : ∀ π σ : Equiv.Perm (Fin 3), (π 0, π 1, π 2) = (σ 0, σ 1, σ 2) → π = σ := by
    intro π σ h
    simp only [Prod.mk.injEq] at h
    ext i
    fin_cases i
    · exact congrArg Fin.val h.1
    · exact congrArg Fin.val h.2.1
    · exact congrArg Fin.val h.2.2
  have im : (Finset.univ.image fun π : Equiv.Perm (Fin 3) => (π 0, π 1, π 2)) =
      {((0 : Fin 3), (1 : Fin 3), (2 : Fin 3)), (1, 2, 0), (2, 0, 1), (0, 2, 1), (2, 1, 0), (1, 0, 2)} := by decide
  have := Finset.sum_image (s := Finset.univ) (g := fun π : Equiv.Perm (Fin 3) => (π 0, π 1, π 2))
    (f := fun t : Fin 3 × Fin 3 × Fin 3 => g t.1 t.2.1 t.2.2) (fun a _ b _ h => inj a b h)
  rw [← this, im]
  rw [Finset.sum_insert (by decide), Finset.sum_insert (by decide), Finset.sum_insert (by decide), Finset.sum_insert (by decide),
    Finset.sum_insert (by decide), Finset.sum_singleton]

theorem lx_inj {s x y : Coords} (hx : ∀ mu, x mu < s mu) (hy : ∀ mu, y mu < s mu) (h : lxOfCoord x s = lxOfCoord y s) : x = y := by
  rw [← (C01_coordOfLx_lxOfCoord s x hx).2, h, (C01_coordOfLx_lxOfCoord s y hy).2]

theorem reflect_lt {s y : Coords} (hy : ∀ mu, y mu < s mu) (A : Fin 3 → Bool) (mu : Dir) : reflect s y A mu < s mu := by
  have p : ∀ mu, 0 < s mu := fun mu => Nat.lt_of_le_of_lt (Nat.zero_le _) (hy mu)
  fin_cases mu
  · show (if A 0 then opp (s 0) (y 0) else y 0) < s 0
    split
    · exact opp_lt (p 0) _
    · exact hy 0
  · show (if A 1 then opp (s 1) (y 1) else y 1) < s 1
    split
    · exact opp_lt (p 1) _
    · exact hy 1
  · show (if A 2 then opp (s 2) (y 2) else y 2) < s 2
    split
    · exact opp_lt (p 2) _
    · exact hy 2
  · exact hy 3

theorem opp_twice {n x : Nat} (h : x < n) (a b : Bool) :
    (if a then opp n (if b then opp n x else x) else (if b then opp n x else x)) = if (Bool.xor a b) then opp n x else x := by
  cases a <;> cases b <;> simp [opp_opp h]

theorem reflect_reflect {s y : Coords} (hy : ∀ mu, y mu < s mu) (A B : Fin 3 → Bool) :
    reflect s (reflect s y B) A = reflect s y (fun i => Bool.xor (A i) (B i)) := by
  funext mu
  fin_cases mu
  · exact opp_twice (hy 0) (A 0) (B 0)
  · exact opp_twice (hy 1) (A 1) (B 1)
  · exact opp_twice (hy 2) (A 2) (B 2)
  · rfl

theorem half_unique {n x x' : Nat} (hn : n % 2 = 0) (hx : x < n) (hx' : x' < n) (h : x ≤ n / 2) (h' : x' ≤ n / 2) (a b : Bool)
    (e : (if a then opp n x else x) = if b then opp n x' else x') : x = x' := by
  rcases opp_cases hx with ⟨h1, h2⟩ | ⟨h1, h2⟩ <;> rcases opp_cases hx' with ⟨h3, h4⟩ | ⟨h3, h4⟩ <;> cases a <;> cases b <;>
    simp only [if_true, if_false, Bool.false_eq_true] at e <;> omega

/-- the point of the first half of the circle at the same distance from the origin -/
def fold' (n x : Nat) : Nat := if x ≤ n / 2 then x else n - x

theorem fold'_spec {n x : Nat} (hn : n % 2 = 0) (h : x < n) : fold' n x ≤ n / 2 ∧ fold' n x < n ∧
    (if decide (¬ x ≤ n / 2) then opp n (fold' n x) else fold' n x) = x := by
  unfold fold'
  by_cases hx : x ≤ n / 2
  · simp [hx]; omega
  · have : opp n (n - x) = x := by
      rcases opp_cases (n := n) (x := n - x) (by omega) with ⟨h3, _⟩ | ⟨_, h3⟩ <;> omega
    simp [hx, this]
    omega

theorem mem_mirrSites (s x : Coords) (t : Nat) : t ∈ mirrSites s x ↔ ∃ A : Fin 3 → Bool, t = lxOfCoord (reflect s x A) s := by
  unfold mirrSites
  simp only [List.mem_map, List.mem_range]
  constructor
  · rintro ⟨i, hi, rfl⟩; exact ⟨bitsOf i, by rw [mirr_reflect s x i hi]⟩
  · rintro ⟨A, rfl⟩
    have : ∀ A : Fin 3 → Bool, ∃ i, i < 8 ∧ bitsOf i = A := by decide
    obtain ⟨i, hi, rfl⟩ := this A
    exact ⟨i, hi, by rw [mirr_reflect s x i hi]⟩

/-- C82: on a lattice with `T` and `L` even, mirrorizing replaces the value at every site whose last coordinate is at most `L/2`
with the mean over the eight reflections of the time, first and second spatial directions; the other sites keep their value.
Partial: the reflections of the last direction are missing (`C82_violated_last_direction`) and half of the sites are not visited. -/
theorem C82_mirrorize_partial (T L dps : Nat) (hT : T % 2 = 0) (hL : L % 2 = 0) (vec : Nat → K) :
    ∃ out, mirrorize ![T, L, L, L] dps vec = some out ∧
      ∀ y : Coords, (∀ mu, y mu < (![T, L, L, L] : Coords) mu) → ∀ id < dps,
        at' ![T, L, L, L] dps out y id =
          if y 3 ≤ L / 2 then (∑ A : Fin 3 → Bool, at' ![T, L, L, L] dps vec (reflect ![T, L, L, L] y A) id) / 8
          else at' ![T, L, L, L] dps vec y id := by
  set s : Coords := ![T, L, L, L] with hs
  refine ⟨_, by unfold mirrorize; rw [if_neg (by simp [hs, hT, hL])], ?_⟩
  intro y hy id hid
  have e0 : s 0 = T := rfl
  have e1 : s 1 = L := rfl
  have e2 : s 2 = L := rfl
  have e3 : s 3 = L := rfl
  have y0 := hy 0; have y1 := hy 1; have y2 := hy 2; have y3 := hy 3
  rw [e0] at y0; rw [e1] at y1; rw [e2] at y2; rw [e3] at y3
  have inBox : ∀ x ∈ mirrPoints (T / 2) (L / 2), ∀ mu, x mu < s mu := by
    intro x hx mu
    rw [mem_mirrPoints] at hx
    fin_cases mu
    · show x 0 < T; omega
    · show x 1 < L; omega
    · show x 2 < L; omega
    · show x 3 < L; omega
  have dis : ∀ p ∈ mirrPoints (T / 2) (L / 2), ∀ q ∈ mirrPoints (T / 2) (L / 2), ∀ t, t ∈ mirrSites s p → t ∈ mirrSites s q → p = q := by
    intro p hp q hq t h1 h2
    obtain ⟨A, hA⟩ := (mem_mirrSites s p t).1 h1
    obtain ⟨B, hB⟩ := (mem_mirrSites s q t).1 h2
    have e := lx_inj (reflect_lt (inBox p hp) A) (reflect_lt (inBox q hq) B) (hA.symm.trans hB)
    have bp := inBox p hp
    have bq := inBox q hq
    rw [mem_mirrPoints] at hp hq
    funext mu
    fin_cases mu
    · exact half_unique hT (bp 0) (bq 0) hp.1 hq.1 (A 0) (B 0) (congrFun e 0)
    · exact half_unique hL (bp 1) (bq 1) hp.2.1 hq.2.1 (A 1) (B 1) (congrFun e 1)
    · exact half_unique hL (bp 2) (bq 2) hp.2.2.1 hq.2.2.1 (A 2) (B 2) (congrFun e 2)
    · exact congrFun e 3
  show (mirrPoints (T / 2) (L / 2)).foldl (fun v x => average dps v (mirrSites s x)) vec (dps * lxOfCoord y s + id) = _
  split
  · rename_i h3
    obtain ⟨a1, a2, a3⟩ := fold'_spec hT y0
    obtain ⟨b1, b2, b3⟩ := fold'_spec hL y1
    obtain ⟨c1, c2, c3⟩ := fold'_spec hL y2
    set p : Coords := ![fold' T (y 0), fold' L (y 1), fold' L (y 2), y 3] with hp
    set B : Fin 3 → Bool := ![decide (¬ y 0 ≤ T / 2), decide (¬ y 1 ≤ L / 2), decide (¬ y 2 ≤ L / 2)] with hB
    have hpm : p ∈ mirrPoints (T / 2) (L / 2) := (mem_mirrPoints _ _ _).2 ⟨a1, b1, c1, h3⟩
    have hyp : reflect s p B = y := by
      funext mu
      fin_cases mu
      · exact a3
      · exact b3
      · exact c3
      · rfl
    rw [fold_orbits dps _ (nodup_mirrPoints _ _) (mirrSites s) vec dis p hpm _ id hid
      ((mem_mirrSites s p _).2 ⟨B, by rw [hyp]⟩)]
    have l8 : (mirrSites s p).length = 8 := by simp [mirrSites]
    rw [l8]
    congr 1
    unfold mirrSites
    rw [List.map_map]
    have e : (List.range 8).map ((fun t => vec (dps * t + id)) ∘ fun imirr => lxOfCoord (mirrCoord s p imirr) s) =
        (List.range 8).map fun i => (fun A => at' s dps vec (reflect s p A) id) (bitsOf i) := by
      apply List.map_congr_left
      intro i hi
      show vec (dps * lxOfCoord (mirrCoord s p i) s + id) = vec _
      rw [mirr_reflect s p i (List.mem_range.1 hi)]
    rw [e, bits_list (fun A => at' s dps vec (reflect s p A) id)]
    have inv : Function.Involutive (fun A : Fin 3 → Bool => fun i => Bool.xor (A i) (B i)) := by
      intro A; funext i; simp
    rw [← Equiv.sum_comp inv.toPerm]
    apply Finset.sum_congr rfl
    intro A _
    show at' s dps vec (reflect s p (fun i => Bool.xor (A i) (B i))) id = _
    rw [← reflect_reflect (inBox p hpm) A B, hyp]
  · rename_i h3
    apply fold_outside dps _ _ _ _ _ hid
    intro q hq hm
    obtain ⟨A, hA⟩ := (mem_mirrSites s q _).1 hm
    have e := lx_inj hy (reflect_lt (inBox q hq) A) hA
    rw [mem_mirrPoints] at hq
    have : y 3 = q 3 := congrFun e 3
    omega

/-- C82: the outcome of mirrorizing is even under the reflection of any of the first three directions, wherever it was averaged. -/
theorem C82_mirrorize_even (T L dps : Nat) (hT : T % 2 = 0) (hL : L % 2 = 0) (vec out : Nat → K)
    (h : mirrorize ![T, L, L, L] dps vec = some out) (y : Coords) (hy : ∀ mu, y mu < (![T, L, L, L] : Coords) mu) (h3 : y 3 ≤ L / 2)
    (id : Nat) (hid : id < dps) (B : Fin 3 → Bool) :
    at' ![T, L, L, L] dps out (reflect ![T, L, L, L] y B) id = at' ![T, L, L, L] dps out y id := by
  obtain ⟨o, ho, H⟩ := C82_mirrorize_partial T L dps hT hL vec
  rw [h] at ho
  obtain rfl := Option.some.inj ho
  rw [H y hy id hid, H _ (reflect_lt hy B) id hid, if_pos h3, if_pos (show reflect _ y B 3 ≤ L / 2 from h3)]
  congr 1
  have inv : Function.Involutive (fun A : Fin 3 → Bool => fun i => Bool.xor (A i) (B i)) := by
    intro A; funext i; simp
  conv_rhs => rw [← Equiv.sum_comp inv.toPerm]
  apply Finset.sum_congr rfl
  intro A _
  rw [reflect_reflect hy A B]
  rfl

/-- C82, violated: on every lattice with `L` even and larger than 2 the outcome of mirrorizing is not, in general, even under
the reflection of the last direction. -/
theorem C82_violated_last_direction [CharZero K] (T L : Nat) (hT0 : 0 < T) (hT : T % 2 = 0) (hL : L % 2 = 0) (hL4 : 4 ≤ L) :
    ∃ vec out : Nat → K, mirrorize ![T, L, L, L] 1 vec = some out ∧
      at' ![T, L, L, L] 1 out ![0, 0, 0, 1] 0 ≠ at' ![T, L, L, L] 1 out ![0, 0, 0, opp L 1] 0 := by
  set s : Coords := ![T, L, L, L] with hs
  have b1 : ∀ mu, (![0, 0, 0, 1] : Coords) mu < s mu := by
    intro mu; fin_cases mu
    · exact hT0
    · show 0 < L; omega
    · show 0 < L; omega
    · show 1 < L; omega
  have o1 : opp L 1 = L - 1 := by rcases opp_cases (n := L) (x := 1) (by omega) with ⟨h3, _⟩ | ⟨_, h3⟩ <;> omega
  have b2 : ∀ mu, (![0, 0, 0, opp L 1] : Coords) mu < s mu := by
    intro mu; fin_cases mu
    · exact hT0
    · show 0 < L; omega
    · show 0 < L; omega
    · show opp L 1 < L; omega
  set v : Nat → K := fun a => if a = lxOfCoord ![0, 0, 0, 1] s then 1 else 0 with hv
  obtain ⟨out, ho, H⟩ := C82_mirrorize_partial T L 1 hT hL v
  refine ⟨v, out, ho, ?_⟩
  rw [H _ b1 0 (by omega), H _ b2 0 (by omega)]
  rw [if_pos (show (![0, 0, 0, 1] : Coords) 3 ≤ L / 2 from (by omega : 1 ≤ L / 2)),
    if_neg (show ¬ (![0, 0, 0, opp L 1] : Coords) 3 ≤ L / 2 from (by omega : ¬ opp L 1 ≤ L / 2))]
  have r : ∀ A : Fin 3 → Bool, reflect s ![0, 0, 0, 1] A = ![0, 0, 0, 1] := by
    intro A
    have z : ∀ n : Nat, opp n 0 = 0 := by intro n; unfold opp; simp
    funext mu
    fin_cases mu
    · show (if A 0 then opp T 0 else 0) = 0; rw [z]; simp
    · show (if A 1 then opp L 0 else 0) = 0; rw [z]; simp
    · show (if A 2 then opp L 0 else 0) = 0; rw [z]; simp
    · rfl
  have v1 : at' s 1 v ![0, 0, 0, 1] 0 = 1 := by simp [at', hv]
  have v2 : at' s 1 v ![0, 0, 0, opp L 1] 0 = 0 := by
    unfold at'
    rw [hv]
    simp only [one_mul, Nat.add_zero]
    rw [if_neg]
    intro h
    have := congrFun (lx_inj b2 b1 h) 3
    have h4 : opp L 1 = 1 := this
    omega
  rw [← hs]
  simp only [r, v1, v2]
  have c8 : Fintype.card (Fin 3 → Bool) = 8 := by decide
  rw [Finset.sum_const, Finset.card_univ, c8]
  norm_num

/-! ### permutations of the spatial axes -/

theorem mem_cubicPoints (TH LH : Nat) (x : Coords) :
    x ∈ cubicPoints TH LH ↔ x 0 ≤ TH ∧ x 1 ≤ LH ∧ x 2 ≤ x 1 ∧ x 3 ≤ x 2 := by
  unfold cubicPoints
  simp only [List.mem_flatMap, List.mem_map, List.mem_range]
  constructor
  · rintro ⟨a, ha, b, hb, c, hc, d, hd, rfl⟩
    exact ⟨Nat.lt_succ_iff.1 ha, Nat.lt_succ_iff.1 hb, Nat.lt_succ_iff.1 hc, Nat.lt_succ_iff.1 hd⟩
  · rintro ⟨h0, h1, h2, h3⟩
    exact ⟨x 0, by omega, x 1, by omega, x 2, by omega, x 3, by omega, by ext i; fin_cases i <;> rfl⟩

theorem nodup_cubicPoints (TH LH : Nat) : (cubicPoints TH LH).Nodup := by
  unfold cubicPoints
  refine nodup_nest _ _ List.nodup_range (fun a _ => nodup_nest _ _ List.nodup_range (fun b _ => nodup_nest _ _ List.nodup_range
    (fun c _ => ?_) ?_) ?_) ?_
  · refine (List.nodup_map_iff_inj_on List.nodup_range).2 ?_
    intro d _ e _ h
    exact congrFun h 3
  all_goals
    intro p _ q _ x hx hy
    simp only [List.mem_flatMap, List.mem_map] at hx hy
  · obtain ⟨_, _, rfl⟩ := hx; obtain ⟨_, _, h⟩ := hy; exact (congrFun h 2).symm
  · obtain ⟨_, _, _, _, rfl⟩ := hx; obtain ⟨_, _, _, _, h⟩ := hy; exact (congrFun h 1).symm
  · obtain ⟨_, _, _, _, _, _, rfl⟩ := hx; obtain ⟨_, _, _, _, _, _, h⟩ := hy; exact (congrFun h 0).symm

theorem sites6 (s x : Coords) : cubicSites s x = [lxOfCoord ![x 0, x 1, x 2, x 3] s, lxOfCoord ![x 0, x 2, x 3, x 1] s,
    lxOfCoord ![x 0, x 3, x 1, x 2] s, lxOfCoord ![x 0, x 1, x 3, x 2] s, lxOfCoord ![x 0, x 3, x 2, x 1] s,
    lxOfCoord ![x 0, x 2, x 1, x 3] s] := rfl

theorem sum_perm (s : Coords) (dps : Nat) (vec : Nat → K) (y : Coords) (id : Nat) :
    ∑ π : Equiv.Perm (Fin 3), at' s dps vec (permute y π) id =
      at' s dps vec ![y 0, y 1, y 2, y 3] id + (at' s dps vec ![y 0, y 2, y 3, y 1] id + (at' s dps vec ![y 0, y 3, y 1, y 2] id +
        (at' s dps vec ![y 0, y 1, y 3, y 2] id + (at' s dps vec ![y 0, y 3, y 2, y 1] id + at' s dps vec ![y 0, y 2, y 1, y 3] id)))) :=
  (perm_list (fun i j k : Fin 3 => at' s dps vec ![y 0, y i.succ, y j.succ, y k.succ] id)).symm

theorem vec4_inj {a b c d a' b' c' d' : Nat} (h : (![a, b, c, d] : Coords) = ![a', b', c', d']) : a = a' ∧ b = b' ∧ c = c' ∧ d = d' :=
  ⟨congrFun h 0, congrFun h 1, congrFun h 2, congrFun h 3⟩

theorem box4 {T L a b c d : Nat} (ha : a < T) (hb : b < L) (hc : c < L) (hd : d < L) (mu : Dir) :
    (![a, b, c, d] : Coords) mu < (![T, L, L, L] : Coords) mu := by
  fin_cases mu
  · exact ha
  · exact hb
  · exact hc
  · exact hd

theorem eta4 (y : Coords) : ![y 0, y 1, y 2, y 3] = y := by funext mu; fin_cases mu <;> rfl

theorem cubic_key {T L : Nat} (hT0 : 0 < T) (hL0 : 0 < L) : ∀ p ∈ cubicPoints (T / 2) (L / 2), ∀ a b c d, a < T → b < L → c < L → d < L → lxOfCoord ![a, b, c, d] ![T, L, L, L] ∈ cubicSites ![T, L, L, L] p →
    a = p 0 ∧ ((b = p 1 ∧ c = p 2 ∧ d = p 3) ∨ (b = p 2 ∧ c = p 3 ∧ d = p 1) ∨ (b = p 3 ∧ c = p 1 ∧ d = p 2) ∨
      (b = p 1 ∧ c = p 3 ∧ d = p 2) ∨ (b = p 3 ∧ c = p 2 ∧ d = p 1) ∨ (b = p 2 ∧ c = p 1 ∧ d = p 3)) := by
  intro p hp a b c d ha hb hc hd h
  rw [mem_cubicPoints] at hp
  have p0 : p 0 < T := by omega
  have p1 : p 1 < L := by omega
  have p2 : p 2 < L := by omega
  have p3 : p 3 < L := by omega
  rw [sites6] at h
  simp only [List.mem_cons, List.not_mem_nil, or_false] at h
  have L4 := @box4 T L a b c d ha hb hc hd
  rcases h with h | h | h | h | h | h
  · have := vec4_inj (lx_inj L4 (box4 p0 p1 p2 p3) h); exact ⟨this.1, Or.inl this.2⟩
  · have := vec4_inj (lx_inj L4 (box4 p0 p2 p3 p1) h); exact ⟨this.1, Or.inr (Or.inl this.2)⟩
  · have := vec4_inj (lx_inj L4 (box4 p0 p3 p1 p2) h); exact ⟨this.1, Or.inr (Or.inr (Or.inl this.2))⟩
  · have := vec4_inj (lx_inj L4 (box4 p0 p1 p3 p2) h); exact ⟨this.1, Or.inr (Or.inr (Or.inr (Or.inl this.2)))⟩
  · have := vec4_inj (lx_inj L4 (box4 p0 p3 p2 p1) h); exact ⟨this.1, Or.inr (Or.inr (Or.inr (Or.inr (Or.inl this.2))))⟩
  · have := vec4_inj (lx_inj L4 (box4 p0 p2 p1 p3) h); exact ⟨this.1, Or.inr (Or.inr (Or.inr (Or.inr (Or.inr this.2))))⟩

theorem cubic_dis {T L : Nat} (hT0 : 0 < T) (hL0 : 0 < L) : ∀ p ∈ cubicPoints (T / 2) (L / 2), ∀ q ∈ cubicPoints (T / 2) (L / 2), ∀ t, t ∈ cubicSites ![T, L, L, L] p → t ∈ cubicSites ![T, L, L, L] q → p = q := by
  intro p hp q hq t h1 h2
  have hp' := (mem_cubicPoints _ _ _).1 hp
  have hq' := (mem_cubicPoints _ _ _).1 hq
  have p0 : p 0 < T := by omega
  have p1 : p 1 < L := by omega
  have p2 : p 2 < L := by omega
  have p3 : p 3 < L := by omega
  have E : ∀ (e : p 0 = q 0 ∧ p 1 = q 1 ∧ p 2 = q 2 ∧ p 3 = q 3), p = q := by
    rintro ⟨a, b, c, d⟩; rw [← eta4 p, ← eta4 q, a, b, c, d]
  apply E
  rw [sites6] at h1
  simp only [List.mem_cons, List.not_mem_nil, or_false] at h1
  rcases h1 with rfl | rfl | rfl | rfl | rfl | rfl
  · have := cubic_key hT0 hL0 q hq _ _ _ _ p0 p1 p2 p3 h2; omega
  · have := cubic_key hT0 hL0 q hq _ _ _ _ p0 p2 p3 p1 h2; omega
  · have := cubic_key hT0 hL0 q hq _ _ _ _ p0 p3 p1 p2 h2; omega
  · have := cubic_key hT0 hL0 q hq _ _ _ _ p0 p1 p3 p2 h2; omega
  · have := cubic_key hT0 hL0 q hq _ _ _ _ p0 p3 p2 p1 h2; omega
  · have := cubic_key hT0 hL0 q hq _ _ _ _ p0 p2 p1 p3 h2; omega

/-- C82: on a lattice with `T` and `L` even, the cubic symmetrization replaces the value at every site of the first octant
(time at most `T/2`, spatial coordinates at most `L/2`) with the mean over the six permutations of the spatial coordinates;
the other sites keep their value.
Partial: outside of the first octant nothing is averaged (`C82_violated_other_octants`). -/
theorem C82_cubic_partial (T L dps : Nat) (hT : T % 2 = 0) (hL : L % 2 = 0) (vec : Nat → K) :
    ∃ out, cubicSymmetrize ![T, L, L, L] dps vec = some out ∧
      ∀ y : Coords, (∀ mu, y mu < (![T, L, L, L] : Coords) mu) → ∀ id < dps,
        at' ![T, L, L, L] dps out y id =
          if y 0 ≤ T / 2 ∧ y 1 ≤ L / 2 ∧ y 2 ≤ L / 2 ∧ y 3 ≤ L / 2 then
            (∑ π : Equiv.Perm (Fin 3), at' ![T, L, L, L] dps vec (permute y π) id) / 6
          else at' ![T, L, L, L] dps vec y id := by
  set s : Coords := ![T, L, L, L] with hs
  refine ⟨_, by unfold cubicSymmetrize; rw [if_neg (by simp [hs, hT, hL])], ?_⟩
  intro y hy id hid
  have y0 : y 0 < T := hy 0
  have y1 : y 1 < L := hy 1
  have y2 : y 2 < L := hy 2
  have y3 : y 3 < L := hy 3
  have hT0 : 0 < T := by omega
  have hL0 : 0 < L := by omega
  have key := cubic_key hT0 hL0
  have dis := cubic_dis hT0 hL0
  show (cubicPoints (T / 2) (L / 2)).foldl (fun v x => average dps v (cubicSites s x)) vec (dps * lxOfCoord y s + id) = _
  split
  · rename_i h
    have done : ∀ a b c, a ≤ L / 2 → b ≤ a → c ≤ b → lxOfCoord y s ∈ cubicSites s ![y 0, a, b, c] →
        (∑ π : Equiv.Perm (Fin 3), at' s dps vec (permute ![y 0, a, b, c] π) id) = (∑ π : Equiv.Perm (Fin 3), at' s dps vec (permute y π) id) →
        (cubicPoints (T / 2) (L / 2)).foldl (fun v x => average dps v (cubicSites s x)) vec (dps * lxOfCoord y s + id) =
          (∑ π : Equiv.Perm (Fin 3), at' s dps vec (permute y π) id) / 6 := by
      intro a b c ha hb hc hm hsum
      have hpm : (![y 0, a, b, c] : Coords) ∈ cubicPoints (T / 2) (L / 2) := (mem_cubicPoints _ _ _).2 ⟨h.1, ha, hb, hc⟩
      rw [fold_orbits dps _ (nodup_cubicPoints _ _) (cubicSites s) vec dis _ hpm _ id hid hm, ← hsum, sum_perm, sites6]
      simp [at']
    rw [← eta4 y]
    have S := sum_perm s dps vec
    have Q := sites6 s
    rcases Nat.le_total (y 1) (y 2) with h12 | h12 <;> rcases Nat.le_total (y 2) (y 3) with h23 | h23 <;>
      rcases Nat.le_total (y 1) (y 3) with h13 | h13
    all_goals rw [eta4 y]
    · refine done (y 3) (y 2) (y 1) (by omega) h23 h12 (by rw [Q]; simp [eta4]) (by rw [S, S]; simp; ring)
    · refine done (y 3) (y 2) (y 1) (by omega) h23 h12 (by rw [Q]; simp [eta4]) (by rw [S, S]; simp; ring)
    · refine done (y 2) (y 3) (y 1) (by omega) h23 h13 (by rw [Q]; simp [eta4]) (by rw [S, S]; simp; ring)
    · refine done (y 2) (y 1) (y 3) (by omega) h12 h13 (by rw [Q]; simp [eta4]) (by rw [S, S]; simp; ring)
    · refine done (y 3) (y 1) (y 2) (by omega) h13 h12 (by rw [Q]; simp [eta4]) (by rw [S, S]; simp; ring)
    · refine done (y 1) (y 3) (y 2) (by omega) h13 h23 (by rw [Q]; simp [eta4]) (by rw [S, S]; simp; ring)
    · refine done (y 1) (y 2) (y 3) (by omega) h12 h23 (by rw [Q]; simp [eta4]) (by rw [eta4])
    · refine done (y 1) (y 2) (y 3) (by omega) h12 h23 (by rw [Q]; simp [eta4]) (by rw [eta4])
  · rename_i h
    apply fold_outside dps _ _ _ _ _ hid
    intro q hq hm
    have hq' := (mem_cubicPoints _ _ _).1 hq
    rw [← eta4 y] at hm
    have := key q hq _ _ _ _ y0 y1 y2 y3 hm
    omega

/-- C82, violated: on every lattice with `L` even and larger than 2 the outcome of the cubic symmetrization does not, in general,
stay the same when two spatial axes are swapped: sites with a coordinate above `L/2` are not averaged. -/
theorem C82_violated_other_octants (T L : Nat) (hT0 : 0 < T) (hT : T % 2 = 0) (hL : L % 2 = 0) (hL4 : 4 ≤ L) :
    ∃ vec out : Nat → K, cubicSymmetrize ![T, L, L, L] 1 vec = some out ∧
      at' ![T, L, L, L] 1 out ![0, 0, 0, L - 1] 0 ≠ at' ![T, L, L, L] 1 out ![0, 0, L - 1, 0] 0 := by
  set s : Coords := ![T, L, L, L] with hs
  have b1 : ∀ mu, (![0, 0, 0, L - 1] : Coords) mu < s mu := box4 hT0 (by omega) (by omega) (by omega)
  have b2 : ∀ mu, (![0, 0, L - 1, 0] : Coords) mu < s mu := box4 hT0 (by omega) (by omega) (by omega)
  set v : Nat → K := fun a => if a = lxOfCoord ![0, 0, 0, L - 1] s then 1 else 0 with hv
  obtain ⟨out, ho, H⟩ := C82_cubic_partial T L 1 hT hL v
  refine ⟨v, out, ho, ?_⟩
  rw [H _ b1 0 (by omega), H _ b2 0 (by omega)]
  rw [if_neg (by rintro ⟨_, _, _, h⟩; have : L - 1 ≤ L / 2 := h; omega), if_neg (by rintro ⟨_, _, h, _⟩; have : L - 1 ≤ L / 2 := h; omega)]
  have v1 : at' s 1 v ![0, 0, 0, L - 1] 0 = 1 := by simp [at', hv]
  have v2 : at' s 1 v ![0, 0, L - 1, 0] 0 = 0 := by
    unfold at'
    rw [hv]
    simp only [one_mul, Nat.add_zero]
    rw [if_neg]
    intro h
    have := (vec4_inj (lx_inj b2 b1 h)).2.2.1
    omega
  rw [v1, v2]
  exact one_ne_zero

/-- C82: both refuse to run when the time or the first spatial extent is odd, whatever the rest -/
theorem C82_odd_refused (s : Coords) (dps : Nat) (vec : Nat → K) (h : s 0 % 2 = 1 ∨ s 1 % 2 = 1) :
    mirrorize s dps vec = none ∧ cubicSymmetrize s dps vec = none := by
  have : s 0 % 2 ≠ 0 ∨ s 1 % 2 ≠ 0 := by omega
  exact ⟨if_pos this, if_pos this⟩

/-- a lattice 2x4x4x4 meets the hypotheses: the point source at (1,1,0,1) is spread over its mirrors -/
example : (mirrorize ![2, 4, 4, 4] 1 (fun a => if a = lxOfCoord ![1, 1, 0, 1] ![2, 4, 4, 4] then (8 : ℚ) else 0)).map
    (fun o => (o (lxOfCoord ![1, 3, 0, 1] ![2, 4, 4, 4]), o (lxOfCoord ![1, 1, 0, 1] ![2, 4, 4, 4]), o (lxOfCoord ![1, 1, 0, 3] ![2, 4, 4, 4])))
      = some (4, 4, 0) := by decide +kernel

end Nissa.Symm
