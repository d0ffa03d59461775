/-
C84: the heat bath of a link.
-/
import Verif.Color.HeatBath
import Mathlib.MeasureTheory.Integral.IntervalIntegral.IntegrationByParts
import Mathlib.Analysis.SpecialFunctions.ExpDeriv
import Mathlib.MeasureTheory.Measure.Lebesgue.Basic

set_option linter.all false

namespace Nissa.Su3f
open Complex ComplexConjugate Matrix

/-- the module of the part of the product along the subgroup, `k` in `P = k r + ...` -/
noncomputable def partMod (P : M3) (g : Fin 3) : ℝ :=
  let a := (su3_sub_gr_indices g).1
  let b := (su3_sub_gr_indices g).2
  Real.sqrt (((P a a).re + (P b b).re) ^ 2 + ((P a b).im + (P b a).im) ^ 2 + ((P a b).re - (P b a).re) ^ 2 + ((P a a).im - (P b b).im) ^ 2)

theorem part_scale_mod (P : M3) (g : Fin 3) :
    (P (su3_sub_gr_indices g).1 (su3_sub_gr_indices g).1).re + (P (su3_sub_gr_indices g).2 (su3_sub_gr_indices g).2).re
      = partMod P g * (su2_part_of_su3 P g).A ∧
    (P (su3_sub_gr_indices g).1 (su3_sub_gr_indices g).2).im + (P (su3_sub_gr_indices g).2 (su3_sub_gr_indices g).1).im
      = partMod P g * (su2_part_of_su3 P g).B ∧
    (P (su3_sub_gr_indices g).1 (su3_sub_gr_indices g).2).re - (P (su3_sub_gr_indices g).2 (su3_sub_gr_indices g).1).re
      = partMod P g * (su2_part_of_su3 P g).C ∧
    (P (su3_sub_gr_indices g).1 (su3_sub_gr_indices g).1).im - (P (su3_sub_gr_indices g).2 (su3_sub_gr_indices g).2).im
      = partMod P g * (su2_part_of_su3 P g).D := by
  obtain ⟨k, hk, ea, eb, ec, ed⟩ := part_scale P g
  have hu := part_unit P g
  have : partMod P g = k := by
    unfold partMod
    dsimp only
    rw [ea, eb, ec, ed]
    unfold Su2.n2 at hu
    rw [show (k * (su2_part_of_su3 P g).A) ^ 2 + (k * (su2_part_of_su3 P g).B) ^ 2 + (k * (su2_part_of_su3 P g).C) ^ 2 + (k * (su2_part_of_su3 P g).D) ^ 2
      = k ^ 2 * ((su2_part_of_su3 P g).A * (su2_part_of_su3 P g).A + (su2_part_of_su3 P g).B * (su2_part_of_su3 P g).B +
        (su2_part_of_su3 P g).C * (su2_part_of_su3 P g).C + (su2_part_of_su3 P g).D * (su2_part_of_su3 P g).D) by ring, hu, mul_one, Real.sqrt_sq hk]
  rw [this]
  exact ⟨ea, eb, ec, ed⟩

theorem part_mod_eq (P : M3) (g : Fin 3) : su2_part_mod P g = if partMod P g = 0 then 1 else 1 / partMod P g := by
  unfold su2_part_mod partMod
  dsimp only
  simp only [← pow_two]

theorem hbX_n2 (a r : Su2) : (hbX a r).n2 = a.n2 * r.n2 := by
  unfold Su2.n2 hbX; dsimp only; ring

theorem hbA_n2 (a0 u3 u4 : ℝ) (hz : 0 ≤ hbZ a0) (h0 : 0 ≤ u4) (h1 : u4 ≤ 1) : (hbA a0 u3 u4).n2 = 1 := by
  unfold Su2.n2 hbA
  dsimp only
  have hs := Real.mul_self_sqrt hz
  have hc : 0 ≤ 1 - unif u4 (-1) 1 * unif u4 (-1) 1 := by unfold unif; nlinarith
  have ht := Real.mul_self_sqrt hc
  have hcs := Real.sin_sq_add_cos_sq (unif u3 0 (2 * Real.pi))
  generalize Real.sqrt (hbZ a0) = x at *
  generalize Real.sqrt (1 - unif u4 (-1) 1 * unif u4 (-1) 1) = st at *
  generalize unif u4 (-1) 1 = ct at *
  generalize Real.sin (unif u3 0 (2 * Real.pi)) = sf at *
  generalize Real.cos (unif u3 0 (2 * Real.pi)) = cf at *
  calc a0 * a0 + st * cf * x * (st * cf * x) + st * sf * x * (st * sf * x) + ct * x * (ct * x)
      = a0 * a0 + (x * x) * ((st * st) * (sf ^ 2 + cf ^ 2) + ct * ct) := by ring
    _ = a0 * a0 + hbZ a0 * ((1 - ct * ct) * 1 + ct * ct) := by rw [hs, ht, hcs]
    _ = 1 := by unfold hbZ; ring

/-- the accepted value comes from a pair of the list with `u2^2 <= 1-a0^2`; the numbers left are a tail of the list -/
theorem hbLoop_spec (w : ℝ) : ∀ (n : ℕ) (d : List ℝ), d.length ≤ n → ∀ a0 rest, hbLoop w d = some (a0, rest) →
    ∃ u1 u2 pre, d = pre ++ u1 :: u2 :: rest ∧ a0 = hbA0 w u1 ∧ u2 ^ 2 ≤ 1 - a0 ^ 2 := by
  intro n
  induction n with
  | zero =>
    intro d hd a0 rest h
    have : d = [] := List.length_eq_zero_iff.1 (by omega)
    subst this
    simp [hbLoop] at h
  | succ n ih =>
    intro d hd a0 rest h
    match d, hd, h with
    | [], _, h => simp [hbLoop] at h
    | [_], _, h => simp [hbLoop] at h
    | u1 :: u2 :: r, hd, h =>
      unfold hbLoop at h
      split at h
      · obtain ⟨v1, v2, pre, e, h1, h2⟩ := ih r (by simp at hd; omega) a0 rest h
        exact ⟨v1, v2, u1 :: u2 :: pre, by rw [e]; rfl, h1, h2⟩
      · rename_i hn
        have := Option.some.inj h
        have e1 : hbA0 w u1 = a0 := congrArg Prod.fst this
        have e2 : r = rest := congrArg Prod.snd this
        refine ⟨u1, u2, [], by rw [e2]; rfl, e1.symm, ?_⟩
        unfold hbRetry hbZ unif at hn
        rw [e1] at hn
        have : ¬ ((u2 * (1 - 0) + 0) ^ 2 - (1 - a0 * a0) > 0) := hn
        rw [show (u2 * (1 - 0) + 0) = u2 by ring] at this
        nlinarith

/-- C84: what one subgroup does. Whatever the numbers drawn (in the unit interval), if the loop of acceptance ends: the link is multiplied from the left
by an SU(2) matrix of the subgroup, the product stays the product of the new link with the staple, and the part of the trace of the product
in the subgroup, which was `k*r0`, becomes `k*a0`, with `a0` the accepted number, between -1 and 1. -/
theorem C84_step (beta : ℝ) (staple : M3) (s s' : M3 × M3) (g : Fin 3) (draws rest : List ℝ) (hd : ∀ u ∈ draws, 0 ≤ u ∧ u ≤ 1)
    (ht : s.2 = s.1 * stapleᴴ) (h : hbStep beta s g draws = some (s', rest)) :
    (∀ u ∈ rest, 0 ≤ u ∧ u ≤ 1) ∧ s'.2 = s'.1 * stapleᴴ ∧ (IsSU3 s.1 → IsSU3 s'.1) ∧
    ∃ u1 u2, u1 ∈ draws ∧ u2 ∈ draws ∧ u2 ^ 2 ≤ 1 - (hbA0 (hbOmega beta s.2 g) u1) ^ 2 ∧ |hbA0 (hbOmega beta s.2 g) u1| ≤ 1 ∧
      (Matrix.trace (s'.1 * stapleᴴ)).re = (Matrix.trace (s.1 * stapleᴴ)).re + partMod s.2 g * (hbA0 (hbOmega beta s.2 g) u1 - (su2_part_of_su3 s.2 g).A) := by
  unfold hbStep at h
  cases hl : hbLoop (hbOmega beta s.2 g) draws with
  | none => rw [hl] at h; simp at h
  | some p =>
    obtain ⟨a0, tl⟩ := p
    rw [hl] at h
    match tl, hl, h with
    | [], _, h => simp at h
    | [_], _, h => simp at h
    | u3 :: u4 :: r, hl, h =>
      dsimp only at h
      have hh := Option.some.inj h
      have e1 := congrArg Prod.fst hh
      have e2 : r = rest := congrArg Prod.snd hh
      dsimp only at e1
      obtain ⟨u1, u2, pre, e, ha, hu⟩ := hbLoop_spec _ _ draws (le_refl _) _ _ hl
      have m : ∀ u, u = u1 ∨ u = u2 ∨ u = u3 ∨ u = u4 ∨ u ∈ r → u ∈ draws := by
        intro u hu'
        rw [e]
        simp only [List.mem_append, List.mem_cons]
        tauto
      have h4 := hd u4 (m u4 (by tauto))
      have hz : 0 ≤ hbZ a0 := by unfold hbZ; nlinarith [sq_nonneg u2]
      set x := hbX (hbA a0 u3 u4) (su2_part_of_su3 s.2 g) with hx
      have hxn : x.n2 = 1 := by rw [hx, hbX_n2, hbA_n2 a0 u3 u4 hz h4.1 h4.2, part_unit, one_mul]
      have s1 : s'.1 = su2_prodassign_su3 x g s.1 := by rw [← e1]
      have s2 : s'.2 = su2_prodassign_su3 x g s.2 := by rw [← e1]
      have tied : s'.2 = s'.1 * stapleᴴ := by
        rw [s1, s2, prodassign_mul, prodassign_mul, ht, Matrix.mul_assoc]
      refine ⟨fun u hu' => hd u (m u (by rw [e2]; tauto)), tied, ?_, u1, u2, m u1 (by tauto), m u2 (by tauto), by rw [← ha]; exact hu, ?_, ?_⟩
      · intro hsu
        rw [s1, prodassign_mul]
        exact su3_mul (emb_su3 _ _ hxn) hsu
      · rw [← ha, abs_le]
        constructor <;> nlinarith [sq_nonneg u2]
      · rw [← tied, ← ht, ← trace_eq, ← trace_eq, s2, trace_rot]
        obtain ⟨ea, eb, ec, ed⟩ := part_scale_mod s.2 g
        rw [ea, eb, ec, ed, ← ha]
        have hu' := part_unit s.2 g
        unfold Su2.n2 at hu'
        have hA : (hbA a0 u3 u4).A = a0 := rfl
        rw [hx]
        unfold hbX
        dsimp only
        rw [hA]
        generalize su2_part_of_su3 s.2 g = q at *
        generalize hbA a0 u3 u4 = a at *
        generalize partMod s.2 g = k at *
        have : k * a0 * (q.A * q.A + q.B * q.B + q.C * q.C + q.D * q.D) = k * a0 := by rw [hu', mul_one]
        linear_combination this

theorem hbSteps_spec (beta : ℝ) (staple : M3) : ∀ (gs : List (Fin 3)) (s s' : M3 × M3) (d d' : List ℝ), (∀ u ∈ d, 0 ≤ u ∧ u ≤ 1) →
    s.2 = s.1 * stapleᴴ → hbSteps beta gs s d = some (s', d') → s'.2 = s'.1 * stapleᴴ ∧ (IsSU3 s.1 → IsSU3 s'.1)
  | [], s, s', d, d', _, ht, h => by
    have e : s = s' := congrArg Prod.fst (Option.some.inj h)
    subst e
    exact ⟨ht, id⟩
  | g :: gs, s, s', d, d', hd, ht, h => by
    unfold hbSteps at h
    cases hs : hbStep beta s g d with
    | none => rw [hs] at h; simp at h
    | some p =>
      obtain ⟨s1, d1⟩ := p
      rw [hs] at h
      obtain ⟨a, b, c, _⟩ := C84_step beta staple s s1 g d d1 hd ht hs
      obtain ⟨e, f⟩ := hbSteps_spec beta staple gs s1 s' d1 d' a b h
      exact ⟨e, fun x => f (c x)⟩

/-- C84: a link of SU(3) stays in SU(3), whatever staple, beta, number of hits and random numbers. -/
theorem C84_link (inp staple out : M3) (beta : ℝ) (nhb_hits : ℕ) (draws rest : List ℝ) (hd : ∀ u ∈ draws, 0 ≤ u ∧ u ≤ 1) (hi : IsSU3 inp)
    (h : su3_find_heatbath inp staple beta nhb_hits draws = some (out, rest)) : IsSU3 out := by
  unfold su3_find_heatbath at h
  cases hs : hbSteps beta ((List.replicate nhb_hits [0, 1, 2]).flatten) (inp, inp * stapleᴴ) draws with
  | none => rw [hs] at h; simp at h
  | some p =>
    obtain ⟨s, d⟩ := p
    rw [hs] at h
    have e : s.1 = out := congrArg Prod.fst (Option.some.inj h)
    rw [← e]
    exact (hbSteps_spec beta staple _ (inp, inp * stapleᴴ) s draws d hd rfl hs).2 hi

/-! ### the law of the accepted number -/

/-- C84: at fixed `a0` in [-1,1], a number of [0,1] makes it accepted if and only if it does not exceed `sqrt(1-a0^2)`. -/
theorem C84_acceptance (a0 u : ℝ) (ha : |a0| ≤ 1) (h0 : 0 ≤ u) : ¬ hbRetry (hbZ a0) u ↔ u ≤ Real.sqrt (1 - a0 ^ 2) := by
  have hz : 0 ≤ 1 - a0 ^ 2 := by
    have := sq_abs a0
    nlinarith [abs_nonneg a0]
  unfold hbRetry hbZ unif
  rw [Real.le_sqrt h0 hz]
  constructor
  · intro h; nlinarith
  · intro h; nlinarith

/-- inverse of the map from the drawn number to `a0` -/
noncomputable def hbU (w a : ℝ) : ℝ := (1 - Real.exp (w * (a - 1))) / (1 - Real.exp (-2 * w))

theorem den_ne {w : ℝ} (hw : w ≠ 0) : 1 - Real.exp (-2 * w) ≠ 0 := by
  intro h
  have : Real.exp (-2 * w) = Real.exp 0 := by rw [Real.exp_zero]; linarith
  have := Real.exp_injective this
  apply hw; linarith

theorem hb_z {w : ℝ} (hw : w ≠ 0) (a : ℝ) : (Real.exp (-2 * w) - 1) * unif (hbU w a) 0 1 + 1 = Real.exp (w * (a - 1)) := by
  have := den_ne hw
  unfold unif hbU
  generalize Real.exp (-2 * w) = z at *
  generalize Real.exp (w * (a - 1)) = y at *
  field_simp
  ring

theorem hbA0_U {w : ℝ} (hw : w ≠ 0) (a : ℝ) : hbA0 w (hbU w a) = a := by
  unfold hbA0
  dsimp only
  rw [hb_z hw, Real.log_exp]
  field_simp
  ring

theorem hbU_ends {w : ℝ} (hw : w ≠ 0) : hbU w (-1) = 1 ∧ hbU w 1 = 0 := by
  have := den_ne hw
  unfold hbU
  constructor
  · rw [show w * (-1 - 1) = -2 * w by ring]; exact div_self this
  · rw [sub_self, mul_zero, Real.exp_zero, sub_self, zero_div]

theorem hbU_deriv (w a : ℝ) : HasDerivAt (hbU w) (-(w * Real.exp (w * (a - 1))) / (1 - Real.exp (-2 * w))) a := by
  unfold hbU
  have h1 : HasDerivAt (fun a : ℝ => w * (a - 1)) w a := by
    have := ((hasDerivAt_id a).sub_const 1).const_mul w
    simpa using this
  have h2 := (h1.exp.const_sub 1).div_const (1 - Real.exp (-2 * w))
  rw [mul_comm w (Real.exp _)]
  exact h2

/-- C84: proposing `a0` from a number uniform in [0,1] and accepting it with probability `sqrt(1-a0^2)` (`C84_acceptance`) gives, up to normalization,
the density `exp(omega*a0)*sqrt(1-a0^2)` on [-1,1]: for each continuous function the two averages agree, with a positive constant which does not depend on it. -/
theorem C84_density (w : ℝ) (hw : w ≠ 0) : ∃ c : ℝ, 0 < c ∧ ∀ f : ℝ → ℝ, Continuous f →
    ∫ u in (0:ℝ)..1, f (hbA0 w u) * Real.sqrt (1 - (hbA0 w u) ^ 2) = c * ∫ a in (-1:ℝ)..1, f a * (Real.exp (w * a) * Real.sqrt (1 - a ^ 2)) := by
  have hd := den_ne hw
  refine ⟨w * Real.exp (-w) / (1 - Real.exp (-2 * w)), ?_, ?_⟩
  · rcases lt_or_gt_of_ne hw with h | h
    · have : 1 < Real.exp (-2 * w) := Real.one_lt_exp_iff.2 (by linarith)
      exact div_pos_of_neg_of_neg (mul_neg_of_neg_of_pos h (Real.exp_pos _)) (by linarith)
    · have : Real.exp (-2 * w) < 1 := by rw [Real.exp_lt_one_iff]; linarith
      exact div_pos (mul_pos h (Real.exp_pos _)) (by linarith)
  · intro f hf
    set gg : ℝ → ℝ := fun u => f (hbA0 w u) * Real.sqrt (1 - (hbA0 w u) ^ 2) with hgg
    have hcU : Continuous (hbU w) := continuous_iff_continuousAt.2 (fun a => (hbU_deriv w a).continuousAt)
    have key := intervalIntegral.integral_comp_mul_deriv'' (a := (-1:ℝ)) (b := 1) (f := hbU w)
      (f' := fun a => -(w * Real.exp (w * (a - 1))) / (1 - Real.exp (-2 * w))) (g := gg) hcU.continuousOn
      (fun a _ => (hbU_deriv w a).hasDerivWithinAt) (by fun_prop) (by
        intro u hu
        obtain ⟨a, _, rfl⟩ := hu
        apply ContinuousAt.continuousWithinAt
        have hA : ContinuousAt (hbA0 w) (hbU w a) := by
          unfold hbA0
          dsimp only
          apply ContinuousAt.add continuousAt_const
          apply ContinuousAt.mul continuousAt_const
          apply ContinuousAt.log
          · unfold unif; fun_prop
          · rw [hb_z hw]; exact (Real.exp_pos _).ne'
        exact (hf.continuousAt.comp hA).mul ((Real.continuous_sqrt.continuousAt).comp (continuousAt_const.sub (hA.pow 2))))
    rw [(hbU_ends hw).1, (hbU_ends hw).2] at key
    rw [intervalIntegral.integral_symm, ← key, ← intervalIntegral.integral_neg, ← intervalIntegral.integral_const_mul]
    apply intervalIntegral.integral_congr
    intro a _
    show -((gg ∘ hbU w) a * (-(w * Real.exp (w * (a - 1))) / (1 - Real.exp (-2 * w)))) = _
    rw [Function.comp_apply, hgg]
    dsimp only
    rw [hbA0_U hw, show w * (a - 1) = -w + w * a by ring, Real.exp_add]
    ring

/-- C84: the weight `omega` is `beta/3` times the module of the part of the product in the subgroup, so `exp(omega*a0)` is the weight
`exp(beta/3*Re Tr)` of the new link (`C84_step`), provided the module is not zero. -/
theorem C84_weight_partial (beta : ℝ) (P : M3) (g : Fin 3) (h : partMod P g ≠ 0) : hbOmega beta P g = beta / 3 * partMod P g := by
  unfold hbOmega
  rw [part_mod_eq, if_neg h]
  field_simp

/-- C84, violated: when the part of the product in the subgroup is zero (a vanishing staple, for instance) the trace does not depend on the new link, but
the code still uses the weight `beta/3` instead of 0. -/
theorem C84_violated_zero (beta : ℝ) (inp : M3) (g : Fin 3) : hbOmega beta (inp * (0 : M3)ᴴ) g = beta / 3 ∧ partMod (inp * (0 : M3)ᴴ) g = 0 := by
  have h : partMod (inp * (0 : M3)ᴴ) g = 0 := by unfold partMod; simp
  refine ⟨?_, h⟩
  unfold hbOmega
  rw [part_mod_eq, if_pos h, mul_one]

/-- a case in which the loop ends: with the first number 0 the value is 1, refused if the second is positive and accepted if it is 0 -/
example (w : ℝ) : hbA0 w 0 = 1 ∧ hbLoop w [0, 1, 0, 0, 7] = some (1, [7]) := by
  have h : hbA0 w 0 = 1 := by unfold hbA0 unif; simp
  refine ⟨h, ?_⟩
  unfold hbLoop
  rw [if_pos (by unfold hbRetry hbZ unif; rw [h]; norm_num)]
  unfold hbLoop
  rw [if_neg (by unfold hbRetry hbZ unif; rw [h]; norm_num), h]

end Nissa.Su3f
