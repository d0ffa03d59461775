import Verif.Rational.PropsFinder
import Mathlib.LinearAlgebra.Lagrange
import Mathlib.Algebra.Polynomial.Splits
import Mathlib.Analysis.Complex.Polynomial.Basic
import Mathlib.Analysis.Calculus.LogDeriv

/-!
# Roots and partial fractions (C56)
-/

set_option linter.all false

namespace Nissa.Remez

variable {K : Type} [Field K] [LinearOrder K] [IsStrictOrderedRing K]

theorem poly_eval_eq (x : K) (p : Nat → K) (n : Nat) : poly_eval x p n = polyAt n p x := by
  unfold poly_eval polyAt
  have : (fun i (f : K) => f * x + p i) = fun i f => x * f + p i := by
    funext i f; rw [mul_comm]
  rw [this, down_horner, Finset.sum_range_succ]
  ring

theorem poly_der_eq (x : K) (p : Nat → K) (n : Nat) (hn : 0 < n) :
    poly_der x p n = ∑ i ∈ Finset.range n, ((i + 1 : Nat) : K) * p (i + 1) * x ^ i := by
  unfold poly_der
  have : (fun t (df : K) => df * x + ((t + 1 : Nat) : K) * p (t + 1)) =
      fun t df => x * df + ((t + 1 : Nat) : K) * p (t + 1) := by
    funext i f; rw [mul_comm f]
  rw [this, down_horner (n - 1) (fun t => ((t + 1 : Nat) : K) * p (t + 1))]
  obtain ⟨m, rfl⟩ : ∃ m, n = m + 1 := ⟨n - 1, by omega⟩
  rw [Nat.add_sub_cancel, Finset.sum_range_succ]
  ring

/-! ### Division by a root -/

theorem deflate_spec (p : Nat → K) (i : Nat) (r : K) (hr : r ≠ 0) :
    p 0 = -r * deflate p i r 0 ∧
      ∀ j, 0 < j → j ≤ i → p j = deflate p i r (j - 1) - r * deflate p i r j := by
  have main := up_inv (fun m (q : Nat → K) => p 0 = -r * q 0 ∧
      (∀ j, 0 < j → j ≤ m → p j = q (j - 1) - r * q j) ∧ ∀ j, m < j → q j = p j)
    (fun t p => put p (t + 1) ((p t - p (t + 1)) / r)) (put p 0 (p 0 / (-r))) i ?_ ?_
  · exact ⟨main.1, main.2.1⟩
  · refine ⟨?_, fun j h1 h2 => by omega, fun j hj => ?_⟩
    · unfold put
      rw [if_pos rfl]
      field_simp
    · unfold put
      rw [if_neg (by omega)]
  · rintro m hm q ⟨h1, h2, h3⟩
    refine ⟨?_, fun j hj0 hj => ?_, fun j hj => ?_⟩
    · unfold put; rw [if_neg (by omega)]; exact h1
    · by_cases a : j = m + 1
      · subst a
        unfold put
        rw [Nat.add_sub_cancel, if_neg (by omega), if_pos rfl, h3 (m + 1) (by omega)]
        field_simp
        ring
      · unfold put
        rw [if_neg (by omega), if_neg a]
        exact h2 j hj0 (by omega)
    · unfold put
      rw [if_neg (by omega)]
      exact h3 j (by omega)

/-- The polynomial divided: what is left over sits entirely in the highest power. -/
theorem deflate_poly (p : Nat → K) (i : Nat) (r : K) (hr : r ≠ 0) (x : K) :
    polyAt (i + 1) p x = (x - r) * polyAt i (deflate p i r) x +
      (p (i + 1) - deflate p i r i) * x ^ (i + 1) := by
  obtain ⟨h0, hj⟩ := deflate_spec p i r hr
  set q := deflate p i r with hq
  have key : ∀ m ≤ i, ∑ j ∈ Finset.range (m + 1), p j * x ^ j =
      (x - r) * ∑ j ∈ Finset.range (m + 1), q j * x ^ j - q m * x ^ (m + 1) := by
    intro m
    induction m with
    | zero => intro _; simp [h0]; ring
    | succ m ih =>
      intro hm
      rw [Finset.sum_range_succ, ih (by omega), Finset.sum_range_succ _ (m + 1),
        hj (m + 1) (by omega) hm, Nat.add_sub_cancel]
      ring
  unfold polyAt
  rw [Finset.sum_range_succ, key i le_rfl]
  ring

/-- One root: what the value of the polynomial at the root found costs. -/
theorem deflate_left (p : Nat → K) (i : Nat) (r : K) (hr : r ≠ 0) :
    p (i + 1) - deflate p i r i = polyAt (i + 1) p r / r ^ (i + 1) := by
  have := deflate_poly p i r hr r
  rw [sub_self, zero_mul, zero_add] at this
  rw [this, mul_div_assoc, div_self (pow_ne_zero _ hr), mul_one]

/-! ### All the roots -/

/-- Product of `x - r j` for `m ≤ j < d`. -/
def rootProd (m d : Nat) (r : Nat → K) (x : K) : K := ∏ j ∈ Finset.Ico m d, (x - r j)

structure RootInv (newton : (Nat → K) → Nat → Option K) (d m : Nat) (c p r : Nat → K)
    (handed : Nat → Nat → K) : Prop where
  found : ∀ j, m ≤ j → j < d → newton (handed j) (j + 1) = some (r j) ∧ r j ≠ 0
  poly : ∀ x, polyAt d c x = polyAt m p x * rootProd m d r x +
    ∑ j ∈ Finset.Ico m d, polyAt (j + 1) (handed j) (r j) / r j ^ (j + 1) * x ^ (j + 1) *
      rootProd (j + 1) d r x
  lead : c d = p m + ∑ j ∈ Finset.Ico m d, polyAt (j + 1) (handed j) (r j) / r j ^ (j + 1)

theorem allRoots_spec (newton : (Nat → K) → Nat → Option K) (d : Nat) (c : Nat → K)
    (s : (Nat → K) × (Nat → K)) (h : allRoots newton d c = some s) :
    ∃ handed, RootInv newton d 0 c s.1 s.2 handed := by
  have main := down_inv (fun m (o : Option ((Nat → K) × (Nat → K))) =>
      m ≤ d → ∀ s, o = some s → ∃ handed, RootInv newton d m c s.1 s.2 handed)
    (rootStep newton) (some (c, fun _ => 0)) d ?_ ?_
  · exact main (Nat.zero_le d) s h
  · rintro _ s hs
    obtain rfl := Option.some.inj hs
    refine ⟨fun _ _ => 0, ⟨fun j h1 h2 => by omega, fun x => by simp [rootProd], by simp⟩⟩
  · rintro m hm o ho _ s hs
    cases o with
    | none => exact absurd hs (by simp [rootStep])
    | some t =>
      obtain ⟨handed, inv⟩ := ho (by omega) t rfl
      simp only [rootStep, Option.bind_some] at hs
      cases hn : newton t.1 (m + 1) with
      | none => rw [hn] at hs; exact absurd hs (by simp)
      | some r =>
        rw [hn] at hs
        simp only at hs
        by_cases hr : r = 0
        · rw [if_pos hr] at hs; exact absurd hs (by simp)
        · rw [if_neg hr] at hs
          obtain rfl := Option.some.inj hs
          have hold : ∀ j, m < j → put t.2 m r j = t.2 j := fun j hj => by
            unfold put; rw [if_neg (by omega)]
          have hnew : put t.2 m r m = r := by unfold put; rw [if_pos rfl]
          have hprod : ∀ l x, m < l → rootProd l d (put t.2 m r) x = rootProd l d t.2 x := by
            intro l x hl
            refine Finset.prod_congr rfl fun j hj => ?_
            rw [hold j (by have := Finset.mem_Ico.1 hj; omega)]
          have hhan : ∀ j, m < j → (fun j => if j = m then t.1 else handed j) j = handed j :=
            fun j hj => by beta_reduce; rw [if_neg (by omega)]
          have hhm : (fun j => if j = m then t.1 else handed j) m = t.1 := by
            beta_reduce; rw [if_pos rfl]
          set hd' := (fun j => if j = m then t.1 else handed j) with hhd'
          refine ⟨hd', ⟨fun j h1 h2 => ?_, fun x => ?_, ?_⟩⟩
          · by_cases a : j = m
            · subst a; simp only; rw [hhm, hnew]; exact ⟨hn, hr⟩
            · simp only; rw [hhan j (by omega), hold j (by omega)]
              exact inv.found j (by omega) h2
          · simp only
            rw [inv.poly x, deflate_poly t.1 m r hr x, deflate_left t.1 m r hr,
              Finset.sum_eq_sum_Ico_succ_bot hm, hhm, hnew, hprod (m + 1) x (by omega)]
            have e1 : rootProd m d (put t.2 m r) x = (x - r) * rootProd (m + 1) d t.2 x := by
              unfold rootProd
              rw [Finset.prod_eq_prod_Ico_succ_bot hm, hnew]
              congr 1
              exact hprod (m + 1) x (by omega)
            have e2 : ∑ k ∈ Finset.Ico (m + 1) d, polyAt (k + 1) (hd' k) (put t.2 m r k) /
                  put t.2 m r k ^ (k + 1) * x ^ (k + 1) * rootProd (k + 1) d (put t.2 m r) x =
                ∑ j ∈ Finset.Ico (m + 1) d, polyAt (j + 1) (handed j) (t.2 j) / t.2 j ^ (j + 1) *
                  x ^ (j + 1) * rootProd (j + 1) d t.2 x := by
              refine Finset.sum_congr rfl fun j hj => ?_
              have := Finset.mem_Ico.1 hj
              rw [hhan j (by omega), hold j (by omega), hprod (j + 1) x (by omega)]
            rw [e1, e2]
            ring
          · simp only
            rw [inv.lead, Finset.sum_eq_sum_Ico_succ_bot hm, hhm, hnew,
              ← deflate_left t.1 m r hr]
            have e2 : ∑ k ∈ Finset.Ico (m + 1) d, polyAt (k + 1) (hd' k) (put t.2 m r k) /
                  put t.2 m r k ^ (k + 1) =
                ∑ j ∈ Finset.Ico (m + 1) d, polyAt (j + 1) (handed j) (t.2 j) / t.2 j ^ (j + 1) := by
              refine Finset.sum_congr rfl fun j hj => ?_
              have := Finset.mem_Ico.1 hj
              rw [hhan j (by omega), hold j (by omega)]
            rw [e2]
            ring

/-- How far `cons · ∏ (x - root j)` is from the polynomial, in terms of the values `δ` left over by
the root finder. -/
def leftover (d : Nat) (r δ : Nat → K) (x : K) : K :=
  ∑ j ∈ Finset.range d, δ j * (x ^ (j + 1) * rootProd (j + 1) d r x - rootProd 0 d r x)

/-- **C56**: the factorised form is the polynomial up to the values the polynomials take at the roots
returned by Newton's method: exactly the polynomial if these are exact roots. -/
theorem C56_roots (newton : (Nat → K) → Nat → Option K) (d : Nat) (c p r : Nat → K)
    (h : allRoots newton d c = some (p, r)) :
    ∃ handed : Nat → Nat → K,
      (∀ j < d, newton (handed j) (j + 1) = some (r j) ∧ r j ≠ 0) ∧
      (∀ x, polyAt d c x = c d * ∏ j ∈ Finset.range d, (x - r j) +
        leftover d r (fun j => polyAt (j + 1) (handed j) (r j) / r j ^ (j + 1)) x) ∧
      ((∀ j < d, polyAt (j + 1) (handed j) (r j) = 0) →
        ∀ x, polyAt d c x = c d * ∏ j ∈ Finset.range d, (x - r j)) := by
  obtain ⟨handed, inv⟩ := allRoots_spec newton d c (p, r) h
  have key : ∀ x, polyAt d c x = c d * ∏ j ∈ Finset.range d, (x - r j) +
      leftover d r (fun j => polyAt (j + 1) (handed j) (r j) / r j ^ (j + 1)) x := by
    intro x
    have hp := inv.poly x
    have hl := inv.lead
    simp only at hp hl
    rw [Finset.range_eq_Ico] at *
    have e0 : polyAt 0 p x = p 0 := by simp [polyAt]
    rw [hp, e0, hl]
    unfold leftover
    rw [Finset.range_eq_Ico]
    have e1 : ∏ j ∈ Finset.Ico 0 d, (x - r j) = rootProd 0 d r x := rfl
    rw [e1]
    have e2 : ∑ j ∈ Finset.Ico 0 d, polyAt (j + 1) (handed j) (r j) / r j ^ (j + 1) *
          (x ^ (j + 1) * rootProd (j + 1) d r x - rootProd 0 d r x) =
        ∑ j ∈ Finset.Ico 0 d, polyAt (j + 1) (handed j) (r j) / r j ^ (j + 1) * x ^ (j + 1) *
          rootProd (j + 1) d r x -
        (∑ j ∈ Finset.Ico 0 d, polyAt (j + 1) (handed j) (r j) / r j ^ (j + 1)) *
          rootProd 0 d r x := by
      rw [Finset.sum_mul, ← Finset.sum_sub_distrib]
      refine Finset.sum_congr rfl fun j _ => ?_
      ring
    rw [e2]
    ring
  refine ⟨handed, fun j hj => inv.found j (by omega) hj, key, fun hz x => ?_⟩
  rw [key x]
  unfold leftover
  rw [Finset.sum_eq_zero, add_zero]
  intro j hj
  beta_reduce
  rw [hz j (Finset.mem_range.1 hj), zero_div, zero_mul]

/-! ### Newton's method -/

theorem newtonLoop_spec (p : Nat → K) (n : Nat) (acc : K) (left : Nat) (x r : K)
    (h : newtonLoop p n acc left x = some r) :
    ∃ y, poly_der y p n ≠ 0 ∧ r = y - poly_eval y p n / poly_der y p n ∧
      |poly_eval y p n / poly_der y p n| < acc := by
  induction left generalizing x with
  | zero => exact absurd h (by simp [newtonLoop])
  | succ left ih =>
    rw [newtonLoop] at h
    by_cases a : poly_der x p n = 0
    · rw [if_pos a] at h; exact absurd h (by simp)
    · rw [if_neg a] at h
      by_cases b : acc ≤ |poly_eval x p n / poly_der x p n|
      · rw [if_pos b] at h; exact ih _ h
      · rw [if_neg b] at h
        by_cases c : left = 0
        · rw [if_pos c] at h; exact absurd h (by simp)
        · rw [if_neg c] at h
          exact ⟨x, a, (Option.some.inj h).symm, not_le.1 b⟩

open Polynomial in
/-- A point where the Newton step is small is near a (complex) root. -/
theorem near_root (P : ℂ[X]) (n : Nat) (hn : P.natDegree ≤ n) (y : ℂ) (acc : ℝ)
    (hd : (derivative P).eval y ≠ 0) (hs : ‖P.eval y / (derivative P).eval y‖ < acc) :
    ∃ z : ℂ, P.eval z = 0 ∧ ‖y - z‖ ≤ n * acc := by
  have hP : P ≠ 0 := by
    rintro rfl
    simp at hd
  have hacc : 0 < acc := lt_of_le_of_lt (norm_nonneg _) hs
  by_cases h0 : P.eval y = 0
  · exact ⟨y, h0, by rw [sub_self, norm_zero]; positivity⟩
  by_contra hcon
  push Not at hcon
  have hsplit : P.Splits := IsAlgClosed.splits P
  have hlog : (derivative P).eval y / P.eval y = (P.roots.map fun z => 1 / (y - z)).sum := by
    exact hsplit.eval_derivative_div_eval_of_ne_zero h0
  have hnpos : 0 < n := by
    rcases Nat.eq_zero_or_pos n with h | h
    · subst h
      have : P.natDegree = 0 := by omega
      rw [natDegree_eq_zero] at this
      obtain ⟨a, rfl⟩ := this
      simp at hd
    · exact h
  have hbound : ‖(P.roots.map fun z => 1 / (y - z)).sum‖ ≤ (P.roots.map fun z => 1 / (n * acc)).sum := by
    refine (norm_multiset_sum_le _).trans ?_
    rw [Multiset.map_map]
    refine Multiset.sum_map_le_sum_map _ _ fun z hz => ?_
    have hz' : P.eval z = 0 := (mem_roots hP).1 hz
    have := hcon z hz'
    simp only [Function.comp_apply, norm_div, norm_one]
    exact one_div_le_one_div_of_le (by positivity) this.le
  have hcard : (P.roots.map fun z => 1 / ((n : ℝ) * acc)).sum ≤ 1 / acc := by
    rw [Multiset.map_const', Multiset.sum_replicate, nsmul_eq_mul]
    have h1 : (Multiset.card P.roots : ℝ) ≤ n := by
      exact_mod_cast (card_roots' P).trans hn
    have h2 : (0 : ℝ) < n := by exact_mod_cast hnpos
    calc (Multiset.card P.roots : ℝ) * (1 / (n * acc)) ≤ n * (1 / (n * acc)) := by
          refine mul_le_mul_of_nonneg_right h1 (by positivity)
      _ = 1 / acc := by field_simp
  rw [← hlog] at hbound
  have h3 := hbound.trans hcard
  rw [norm_div] at h3 hs
  have hp1 : 0 < ‖P.eval y‖ := norm_pos_iff.2 h0
  have hp2 : 0 < ‖(derivative P).eval y‖ := norm_pos_iff.2 hd
  rw [div_le_div_iff₀ hp1 hacc] at h3
  rw [div_lt_iff₀ hp2] at hs
  nlinarith

open Polynomial in
/-- The polynomial with coefficients `p 0, …, p n`, over the complex numbers. -/
noncomputable def cpoly (n : Nat) (p : Nat → ℝ) : ℂ[X] :=
  ∑ i ∈ Finset.range (n + 1), monomial i (p i : ℂ)

open Polynomial in
/-- **C56**: a root returned by Newton's method is within `(degree+1)·acc` of a true root, real or
complex, of the polynomial. -/
theorem C56_newton (p : Nat → ℝ) (n : Nat) (hn : 0 < n) (x1 x2 acc r : ℝ)
    (h : root_find_Newton p n x1 x2 acc = some r) :
    ∃ z : ℂ, ∑ i ∈ Finset.range (n + 1), (p i : ℂ) * z ^ i = 0 ∧ ‖(r : ℂ) - z‖ ≤ (n + 1) * acc := by
  obtain ⟨y, hd, hr, hs⟩ := newtonLoop_spec p n acc 10000 _ r h
  have hev : ∀ z : ℂ, (cpoly n p).eval z = ∑ i ∈ Finset.range (n + 1), (p i : ℂ) * z ^ i := by
    intro z
    unfold cpoly
    rw [eval_finset_sum]
    exact Finset.sum_congr rfl fun i _ => by rw [eval_monomial]
  have hde : ((derivative (cpoly n p)).eval (y : ℂ)) = ((poly_der y p n : ℝ) : ℂ) := by
    unfold cpoly
    rw [derivative_sum, eval_finset_sum, Finset.sum_range_succ', poly_der_eq y p n hn]
    simp only [derivative_monomial, eval_monomial]
    push_cast
    rw [mul_zero, zero_mul, add_zero]
    refine Finset.sum_congr rfl fun i _ => ?_
    ring
  have hpe : (cpoly n p).eval (y : ℂ) = ((poly_eval y p n : ℝ) : ℂ) := by
    rw [hev, poly_eval_eq]
    unfold polyAt
    push_cast
    rfl
  have hdeg : (cpoly n p).natDegree ≤ n := by
    refine natDegree_sum_le_of_forall_le _ _ fun i hi => ?_
    exact (natDegree_monomial_le _).trans (by have := Finset.mem_range.1 hi; omega)
  obtain ⟨z, hz, hyz⟩ := near_root (cpoly n p) n hdeg y acc
    (by rw [hde]; exact_mod_cast hd)
    (by rw [hde, hpe, ← Complex.ofReal_div, Complex.norm_real]; exact hs)
  refine ⟨z, by rw [← hev]; exact hz, ?_⟩
  have h1 : ‖(r : ℂ) - y‖ ≤ acc := by
    rw [← Complex.ofReal_sub, Complex.norm_real, hr, Real.norm_eq_abs, sub_sub_cancel_left, abs_neg]
    exact hs.le
  calc ‖(r : ℂ) - z‖ = ‖((r : ℂ) - y) + (y - z)‖ := by ring_nf
    _ ≤ ‖(r : ℂ) - y‖ + ‖(y : ℂ) - z‖ := norm_add_le _ _
    _ ≤ acc + n * acc := add_le_add h1 hyz
    _ = (n + 1) * acc := by ring

end Nissa.Remez
