/- C17 and C19: the per-site random generator. -/
import Verif.Random.Ran2
import Verif.Geometry.PropsLx
import Mathlib.Tactic.Ring
import Mathlib.Tactic.Linarith
import Mathlib.Tactic.Positivity
import Mathlib.Tactic.NormNum
import Mathlib.Tactic.FieldSimp
import Mathlib.RingTheory.Coprime.Lemmas
set_option linter.all false

namespace Nissa.Ran2
open Nissa.Lx (Coords Geo)

theorem ck_some {z : Int} (h1 : -2 ^ 31 ≤ z) (h2 : z < 2 ^ 31) : ck z = some z := by rw [ck, if_pos ⟨h1, h2⟩]

/-- Schrage's trick, with all intermediate values inside of an `int` -/
theorem update_exact {im ia iq ir x : Int} (hq : 0 < iq) (hx0 : 0 ≤ x) (hx : x < 2 ^ 31) (him : im = ia * iq + ir) (him31 : im < 2 ^ 31)
    (ha : 0 < ia) (hir : 0 < ir) (hk : (x / iq) * ir < im) : update im ia iq ir x = some ((ia * x) % im) := by
  have e1 := Int.mul_ediv_add_emod x iq
  have e2 := Int.emod_nonneg x (Int.ne_of_gt hq)
  have e3 := Int.emod_lt_of_pos x hq
  have hk0 : 0 ≤ x / iq := Int.ediv_nonneg hx0 (Int.le_of_lt hq)
  unfold update
  rw [Int.tdiv_eq_ediv_of_nonneg hx0]
  generalize x / iq = k at *
  generalize x % iq = r at *
  have hkq : 0 ≤ k * iq := Int.mul_nonneg hk0 (Int.le_of_lt hq)
  have hc : iq * k = k * iq := Int.mul_comm _ _
  have hir0 : 0 ≤ k * ir := Int.mul_nonneg hk0 (Int.le_of_lt hir)
  have har0 : 0 ≤ ia * r := Int.mul_nonneg (Int.le_of_lt ha) e2
  have har : ia * r < im := by
    have : ia * r ≤ ia * iq := Int.mul_le_mul_of_nonneg_left (Int.le_of_lt e3) (Int.le_of_lt ha)
    omega
  have hxr : x - k * iq = r := by omega
  have hres : ia * r - k * ir = ia * x - k * im := by rw [← hxr, him]; ring
  simp only [Option.bind_eq_bind, ck_some (show -2 ^ 31 ≤ k * iq by omega) (by omega), Option.bind_some, hxr,
    ck_some (show -2 ^ 31 ≤ r by omega) (by omega), ck_some (show -2 ^ 31 ≤ ia * r by omega) (by omega),
    ck_some (show -2 ^ 31 ≤ k * ir by omega) (by omega), ck_some (show -2 ^ 31 ≤ ia * r - k * ir by omega) (by omega)]
  split
  · rw [ck_some (by omega) (by omega)]
    congr 1
    have : ia * r - k * ir + im = ia * x + im * (1 - k) := by rw [hres]; ring
    rw [← Int.add_mul_emod_self_left (ia * x) im (1 - k), ← this, Int.emod_eq_of_lt (by omega) (by omega)]
  · congr 1
    have : ia * r - k * ir = ia * x + im * (-k) := by rw [hres]; ring
    rw [← Int.add_mul_emod_self_left (ia * x) im (-k), ← this, Int.emod_eq_of_lt (by omega) (by omega)]

theorem update1 {x : Int} (h0 : 0 ≤ x) (h : x < 2 ^ 31) : update im1 ia1 iq1 ir1 x = some ((ia1 * x) % im1) :=
  update_exact (by decide) h0 h (by decide) (by decide) (by decide) (by decide) (by simp only [iq1, ir1, im1]; omega)

theorem update2 {x : Int} (h0 : 0 ≤ x) (h : x < 2 ^ 31) : update im2 ia2 iq2 ir2 x = some ((ia2 * x) % im2) :=
  update_exact (by decide) h0 h (by decide) (by decide) (by decide) (by decide) (by simp only [iq2, ir2, im2]; omega)

/-- the ranges: seeds below their moduli, table and last output below the first modulus -/
structure Valid (g : Gen) : Prop where
  idum : 0 ≤ g.idum ∧ g.idum < im1
  idum2 : 0 ≤ g.idum2 ∧ g.idum2 < 2 ^ 31
  iv : ∀ j, 0 ≤ g.iv j ∧ g.iv j < im1
  iy : 0 ≤ g.iy ∧ g.iy ≤ imm1

theorem mod1 (x : Int) : 0 ≤ x % im1 ∧ x % im1 < im1 := ⟨Int.emod_nonneg _ (by decide), Int.emod_lt_of_pos _ (by decide)⟩
theorem mod2 (x : Int) : 0 ≤ x % im2 ∧ x % im2 < im2 := ⟨Int.emod_nonneg _ (by decide), Int.emod_lt_of_pos _ (by decide)⟩
theorem im1_lt {x : Int} (h : x < im1) : x < 2 ^ 31 := by unfold im1 at h; omega

/-- the start loop -/
theorem startLoop_spec (n : Nat) : ∀ (idum : Int) (iv : Fin 32 → Int), 0 ≤ idum → idum < 2 ^ 31 →
    (n = 0 → idum < im1) → (∀ j : Fin 32, n ≤ j.val → 0 ≤ iv j ∧ iv j < im1) →
    ∃ i iv', startLoop n idum iv = some (i, iv') ∧ i = (if n = 0 then idum else (ia1 ^ n * idum) % im1) ∧ 0 ≤ i ∧ i < im1 ∧ ∀ j, 0 ≤ iv' j ∧ iv' j < im1 := by
  induction n with
  | zero =>
    intro idum iv h0 h1 h2 h3
    exact ⟨idum, iv, rfl, by simp, h0, h2 rfl, fun j => h3 j (by omega)⟩
  | succ n ih =>
    intro idum iv h0 h1 h2 h3
    simp only [startLoop, update1 h0 h1, Option.bind_eq_bind, Option.bind_some]
    obtain ⟨a, b⟩ := mod1 (ia1 * idum)
    obtain ⟨i, iv', e1, e2, e3, e4, e5⟩ := ih ((ia1 * idum) % im1) (if h : n < 32 then Function.update iv ⟨n, h⟩ ((ia1 * idum) % im1) else iv) a (im1_lt b)
      (fun _ => b) (fun j hj => by
        split
        · rename_i h
          by_cases hjn : j = ⟨n, h⟩
          · rw [hjn, Function.update_self]; exact ⟨a, b⟩
          · rw [Function.update_of_ne hjn]
            refine h3 j ?_
            have : j.val ≠ n := fun h' => hjn (Fin.ext h')
            omega
        · have := j.isLt; omega)
    refine ⟨i, iv', e1, ?_, e3, e4, e5⟩
    rw [e2, if_neg (Nat.succ_ne_zero n)]
    split
    · rename_i hn; rw [hn]; simp
    · rw [pow_succ, mul_assoc, Int.mul_emod, Int.emod_emod_of_dvd _ (dvd_refl im1), ← Int.mul_emod]

/-- C17: for each seed but the largest `int` the generator starts, without overflows, in a valid state; the first seed is the exact
40th power of the multiplier times the starting one -/
theorem C17_start (seed : Int) (h1 : -2 ^ 31 ≤ seed) (h2 : seed < 2 ^ 31 - 1) (mem : Fin 32 → Int) :
    ∃ g, start seed mem = some g ∧ Valid g ∧ g.idum = (ia1 ^ 40 * max (seed + 1) 1) % im1 ∧ g.idum2 = max (seed + 1) 1 := by
  unfold start
  rw [ck_some (by omega) (by omega), Option.bind_eq_bind, Option.bind_some]
  obtain ⟨i, iv, e1, e2, e3, e4, e5⟩ := startLoop_spec 40 (max (seed + 1) 1) mem (by omega) (by omega) (by omega) (fun j hj => by have := j.isLt; omega)
  simp only [e1, Option.bind_eq_bind, Option.bind_some]
  refine ⟨_, rfl, ⟨⟨e3, e4⟩, ⟨by simp only; omega, by simp only; omega⟩, e5, ?_⟩, by rw [e2]; rfl, rfl⟩
  have := e5 0
  simp only [imm1]
  omega

/-- the largest seed overflows -/
theorem C17_largest_seed_violated : start (2 ^ 31 - 1) = none := rfl

/-- C17: each draw from a valid state succeeds: no overflow, no access outside of the table; it performs the exact modular
multiplications and leaves a valid state -/
theorem C17_draw (g : Gen) (hv : Valid g) : ∃ g', step g = some g' ∧ Valid g' ∧ g'.idum = (ia1 * g.idum) % im1 ∧ g'.idum2 = (ia2 * g.idum2) % im2 ∧
    ∃ j : Fin 32, g'.iv = Function.update g.iv j g'.idum ∧ (g'.iy = g.iv j - g'.idum2 ∨ g'.iy = g.iv j - g'.idum2 + imm1) := by
  unfold step
  have h1 := hv.idum
  have h2 := hv.idum2
  have h3 := hv.iy
  simp only [update1 h1.1 (im1_lt h1.2), Option.bind_eq_bind, Option.bind_some, update2 h2.1 h2.2]
  have hj : 0 ≤ Int.tdiv g.iy ndiv ∧ Int.tdiv g.iy ndiv < 32 := by
    rw [Int.tdiv_eq_ediv_of_nonneg h3.1, show ndiv = 67108862 from rfl]
    have : imm1 = 2147483562 := rfl
    rw [this] at h3
    omega
  simp only [dif_pos hj]
  generalize (⟨(Int.tdiv g.iy ndiv).toNat, _⟩ : Fin 32) = j
  have hjv := hv.iv j
  obtain ⟨a1, b1⟩ := mod1 (ia1 * g.idum)
  obtain ⟨a2, b2⟩ := mod2 (ia2 * g.idum2)
  generalize (ia1 * g.idum) % im1 = x1 at *
  generalize (ia2 * g.idum2) % im2 = x2 at *
  have c1 : im1 = 2147483563 := rfl
  have c2 : im2 = 2147483399 := rfl
  have c3 : imm1 = 2147483562 := rfl
  rw [c1] at hjv b1; rw [c2] at b2
  have hiv : ∀ k, 0 ≤ Function.update g.iv j x1 k ∧ Function.update g.iv j x1 k < im1 := by
    intro k
    by_cases h : k = j
    · rw [h, Function.update_self, c1]; exact ⟨a1, b1⟩
    · rw [Function.update_of_ne h]; exact hv.iv k
  simp only [ck_some (show -2 ^ 31 ≤ g.iv j - x2 by omega) (by omega), Option.bind_eq_bind, Option.bind_some]
  by_cases hn : g.iv j - x2 < 0
  · rw [if_pos hn, c3, ck_some (by omega) (by omega)]
    refine ⟨_, rfl, ⟨⟨a1, by rw [c1]; exact b1⟩, ⟨a2, by simp only; omega⟩, hiv, ?_⟩, rfl, rfl, j, rfl, Or.inr rfl⟩
    simp only [c3]; omega
  · rw [if_neg hn]
    refine ⟨_, rfl, ⟨⟨a1, by rw [c1]; exact b1⟩, ⟨a2, by simp only; omega⟩, hiv, ?_⟩, rfl, rfl, j, rfl, Or.inl rfl⟩
    simp only [c3]; omega

theorem unit_mem {g : Gen} (hv : Valid g) : 0 ≤ unit g ∧ unit g < 1 := by
  unfold unit
  obtain ⟨h1, h2⟩ := hv.iy
  have h1' : (0 : ℚ) ≤ (g.iy : ℚ) := by exact_mod_cast h1
  constructor
  · refine le_min (mul_nonneg ?_ h1') ?_
    · rw [show im1 = 2147483563 from rfl]; norm_num
    · norm_num
  · exact lt_of_le_of_lt (min_le_right _ _) (by norm_num)

/-- C17: the number drawn lies in [min, max) -/
theorem C17_unif_range (g : Gen) (hv : Valid g) (mn mx : ℚ) (hm : mn < mx) :
    ∃ u g', getUnif g mn mx = some (u, g') ∧ Valid g' ∧ mn ≤ u ∧ u < mx := by
  obtain ⟨g', e, hv', -⟩ := C17_draw g hv
  refine ⟨_, g', by rw [getUnif, e]; rfl, hv', ?_, ?_⟩
  · have := mul_nonneg (unit_mem hv').1 (sub_nonneg.2 (le_of_lt hm)); linarith
  · have := mul_lt_mul_of_pos_right (unit_mem hv').2 (sub_pos.2 hm); linarith

/-- C17: any number of draws can be made from any started generator, always in a valid state, the two seeds following exactly the
two multiplicative sequences -/
theorem C17_any_number_of_draws (seed : Int) (h1 : -2 ^ 31 ≤ seed) (h2 : seed < 2 ^ 31 - 1) (mem : Fin 32 → Int) (n : Nat) :
    ∃ g0 g, start seed mem = some g0 ∧ steps n g0 = some g ∧ Valid g ∧ g.idum = (ia1 ^ (40 + n) * max (seed + 1) 1) % im1 ∧
      (0 < n → g.idum2 = (ia2 ^ n * max (seed + 1) 1) % im2) := by
  obtain ⟨g0, e, hv, e1, e2⟩ := C17_start seed h1 h2 mem
  refine ⟨g0, ?_⟩
  have key : ∀ n (g : Gen), Valid g → ∃ g', steps n g = some g' ∧ Valid g' ∧ g'.idum = (ia1 ^ n * g.idum) % im1 ∧ (0 < n → g'.idum2 = (ia2 ^ n * g.idum2) % im2) := by
    intro n
    induction n with
    | zero =>
      intro g hv
      refine ⟨g, rfl, hv, ?_, fun h => absurd h (by omega)⟩
      rw [pow_zero, one_mul, Int.emod_eq_of_lt hv.idum.1 hv.idum.2]
    | succ n ih =>
      intro g hv
      obtain ⟨g1, a1, a2, a3, a4, -⟩ := C17_draw g hv
      obtain ⟨g2, b1, b2, b3, b4⟩ := ih g1 a2
      refine ⟨g2, by rw [steps, a1, Option.bind_eq_bind, Option.bind_some]; exact b1, b2, ?_, fun _ => ?_⟩
      · rw [b3, a3, pow_succ, mul_assoc, Int.mul_emod, Int.emod_emod_of_dvd _ (dvd_refl im1), ← Int.mul_emod]
      · rcases Nat.eq_zero_or_pos n with h | h
        · subst h
          rw [steps, Option.some.injEq] at b1
          rw [← b1, a4]; simp
        · rw [b4 h, a4, pow_succ, mul_assoc, Int.mul_emod, Int.emod_emod_of_dvd _ (dvd_refl im2), ← Int.mul_emod]
  obtain ⟨g, a1, a2, a3, a4⟩ := key n g0 hv
  refine ⟨g, e, a1, a2, ?_, fun h => by rw [a4 h, e2]⟩
  rw [a3, e1, Int.mul_emod, Int.emod_emod_of_dvd _ (dvd_refl im1), ← Int.mul_emod, ← mul_assoc, ← pow_add, Nat.add_comm]

theorem not_dvd_pow {m a : Int} (hc : IsCoprime m a) (n : Nat) {x : Int} (h : m ∣ a ^ n * x) : m ∣ x :=
  (IsCoprime.pow_right hc).dvd_of_dvd_mul_left h

/-- C17: with the exception of one seed for each of the two sequences, neither sequence ever gets stuck at zero -/
theorem C17_never_stuck (seed : Int) (h1 : -2 ^ 31 ≤ seed) (h2 : seed < 2 ^ 31 - 1) (hs1 : seed ≠ im1 - 1) (hs2 : seed ≠ im2 - 1) (mem : Fin 32 → Int) (n : Nat) (g0 g : Gen)
    (e0 : start seed mem = some g0) (e : steps n g0 = some g) : g.idum ≠ 0 ∧ g.idum2 ≠ 0 := by
  obtain ⟨g0', g', a1, a2, a3, a4, a5⟩ := C17_any_number_of_draws seed h1 h2 mem n
  rw [e0] at a1; cases a1
  rw [e] at a2; cases a2
  have c1 : im1 = 2147483563 := rfl
  have c2 : im2 = 2147483399 := rfl
  constructor
  · intro h
    rw [h] at a4
    have hd := not_dvd_pow (m := im1) (a := ia1) (by rw [c1]; exact Int.isCoprime_iff_gcd_eq_one.2 (by decide)) _ (Int.dvd_of_emod_eq_zero a4.symm)
    rw [c1] at hs1 hd
    have := Int.le_of_dvd (by omega) hd
    obtain ⟨k, hk⟩ := hd
    omega
  · intro h
    rcases Nat.eq_zero_or_pos n with hn | hn
    · subst hn
      rw [steps, Option.some.injEq] at e
      obtain ⟨g0'', b1, -, -, b2⟩ := C17_start seed h1 h2 mem
      rw [e0] at b1; cases b1
      rw [e, h] at b2
      omega
    · have := a5 hn
      rw [h] at this
      have hd := not_dvd_pow (m := im2) (a := ia2) (by rw [c2]; exact Int.isCoprime_iff_gcd_eq_one.2 (by decide)) _ (Int.dvd_of_emod_eq_zero this.symm)
      rw [c2] at hs2 hd
      obtain ⟨k, hk⟩ := hd
      omega

/-- the exceptional seed: the first sequence and hence the whole table vanish from the start, and remain so for ever -/
theorem C17_stuck_seed_violated (n : Nat) (mem : Fin 32 → Int) : ∃ g0 g, start (im1 - 1) mem = some g0 ∧ steps n g0 = some g ∧ g.idum = 0 := by
  obtain ⟨g0, g, a1, a2, a3, a4, -⟩ := C17_any_number_of_draws (im1 - 1) (by decide) (by decide) mem n
  refine ⟨g0, g, a1, a2, ?_⟩
  rw [a4, show max (im1 - 1 + 1) 1 = im1 by decide]
  exact Int.mul_emod_left _ _

example : ∃ g, start 1234 = some g ∧ Valid g := by
  obtain ⟨g, a, b, -⟩ := C17_start 1234 (by decide) (by decide) (fun _ => 0); exact ⟨g, a, b⟩

end Nissa.Ran2
