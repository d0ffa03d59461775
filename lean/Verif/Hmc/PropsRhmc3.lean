import Verif.Hmc.PropsRhmc2

/-! # The step of the RHMC: the largest eigenvalue (C57) -/

set_option linter.all false

namespace Nissa.Rhmc
open Nissa.Lx Nissa.Sten Nissa.Su3f Nissa.Gauge Nissa.GForce Nissa.LSm Nissa.StD Nissa.Back Nissa.CgF Nissa.Inv Nissa.QForce Nissa.Omel Matrix Complex
open Nissa.Remez (RatApprox Discretiz FlavSpec root_needed set_expansions up up_inv)
open scoped RealInnerProductSpace

noncomputable section

/-! ### The loop, for any norm -/

section
variable {g : Geo} (sched : Nat → Nat → List Nat) (apply : EvnFld → EvnFld)

/-- the norm -/
def nrm (g : Geo) (sched : Nat → Nat → List Nat) (v : EvnFld) : ℝ := Real.sqrt (norm2 g sched v)

/-- the vector after `k` iterations: each time `A v/sqrt|A v|` -/
def powVec (g : Geo) (sched : Nat → Nat → List Nat) (apply : EvnFld → EvnFld) (v : EvnFld) : Nat → EvnFld
  | 0 => v
  | k + 1 => (normalizeFrom g sched (apply (powVec g sched apply v k)) 1).1

/-- the estimate at the iteration `k` -/
def powEst (g : Geo) (sched : Nat → Nat → List Nat) (apply : EvnFld → EvnFld) (v : EvnFld) (k : Nat) : ℝ :=
  (normalizeFrom g sched (apply (powVec g sched apply v k)) 1).2

/-- the loop stops at some iteration, for the criterion or for the maximal number of iterations -/
theorem powerLoop_stops (v : EvnFld) (niters left iter : Nat) (e : ℝ) (hn : left + iter = max niters 1) (hl : 0 < left) (he : 0 < iter → e = powEst g sched apply v (iter - 1)) :
    ∃ k, iter ≤ k ∧ powerLoop g sched apply niters left iter e (powVec g sched apply v iter) = powEst g sched apply v k ∧
      (niters ≤ k + 1 ∨ (0 < k ∧ powEst g sched apply v k / powEst g sched apply v (k - 1) - 1 ≤ 1 / 10 ^ 14)) := by
  induction left generalizing iter e with
  | zero => omega
  | succ left ih =>
    unfold powerLoop
    simp only
    by_cases hs : iter + 1 < niters ∧ (if iter > 0 then decide ((normalizeFrom g sched (apply (powVec g sched apply v iter)) 1).2 / e - 1 > 1 / 10 ^ 14) else true) = true
    · rw [if_pos hs]
      obtain ⟨k, h1, h2, h3⟩ := ih (iter + 1) (powEst g sched apply v iter) (by omega) (by omega) (fun _ => rfl)
      exact ⟨k, by omega, h2, h3⟩
    · rw [if_neg hs]
      refine ⟨iter, le_refl _, rfl, ?_⟩
      by_cases h1 : iter + 1 < niters
      · right
        have h2 : ¬ (if iter > 0 then decide ((normalizeFrom g sched (apply (powVec g sched apply v iter)) 1).2 / e - 1 > 1 / 10 ^ 14) else true) = true := fun h => hs ⟨h1, h⟩
        by_cases hi : iter > 0
        · rw [if_pos hi, decide_eq_true_iff, he hi] at h2
          exact ⟨hi, not_lt.1 h2⟩
        · rw [if_neg hi] at h2
          exact absurd rfl h2
      · left; omega

end

section
variable {g : Geo} (ok : g.Ok) (eo : EoOk g)
include ok eo

/-- the field as a vector -/
def vec (g : Geo) (v : EvnFld) : EV (↥(boxP g 0) × Fin 3) := (evenView g).toE (globH g v)

theorem norm2_vec {sched : Nat → Nat → List Nat} (hl : ∀ rk, Reduce.Legal (sched rk)) (v : EvnFld) : norm2 g sched v = ‖vec g v‖ ^ 2 := by
  rw [norm2_glob ok eo hl, ← real_inner_self_eq_norm_sq, vec, toE_inner, even_dot]

theorem nrm_vec {sched : Nat → Nat → List Nat} (hl : ∀ rk, Reduce.Legal (sched rk)) (v : EvnFld) : nrm g sched v = ‖vec g v‖ := by
  rw [nrm, norm2_vec ok eo hl, Real.sqrt_sq (norm_nonneg _)]

omit ok eo in
theorem vec_scale (v : EvnFld) (a : ℝ) : vec g (fun rk e c => v rk e c * a) = a • vec g v := by
  ext ⟨⟨c, hc⟩, i⟩
  show globH g v c i * (a : ℂ) = a • globH g v c i
  rw [Complex.real_smul, mul_comm]

theorem vec_apply (ji : Nat) (jq : Quad) (jv : Col) (conf : EoConf) (m2 : ℝ) (v : EvnFld) : vec g (stD2ee g ji jq jv conf m2 v) = kernE g (globEo g conf) m2 (vec g v) := by
  unfold vec
  rw [kernE_toE ok eo]
  ext ⟨⟨c, hc⟩, i⟩
  show globH g (stD2ee g ji jq jv conf m2 v) c i = kern g (globEo g conf) m2 (globH g v) c i
  rw [stD2ee_eq ok eo ji jq jv conf m2 v hc]
  unfold kern
  simp

/-- C57, violated: `normalize(oth,newNorm)` does not return a field of norm `newNorm`: the square root of the square norm is taken twice, and
the norm of the result is `newNorm` times the square root of the norm of `oth`. -/
theorem C57_violated_normalize {sched : Nat → Nat → List Nat} (hl : ∀ rk, Reduce.Legal (sched rk)) (v : EvnFld) (a : ℝ) (ha : 0 ≤ a) :
    nrm g sched (normalizeFrom g sched v a).1 = a * Real.sqrt (nrm g sched v) := by
  unfold normalizeFrom
  simp only
  rw [nrm_vec ok eo hl, vec_scale, norm_smul]
  show ‖a / Real.sqrt (nrm g sched v)‖ * _ = _
  rw [nrm_vec ok eo hl, Real.norm_eq_abs, abs_of_nonneg (div_nonneg ha (Real.sqrt_nonneg _))]
  have h := norm_nonneg (vec g v)
  by_cases h0 : ‖vec g v‖ = 0
  · rw [h0]; simp
  · have : Real.sqrt ‖vec g v‖ ≠ 0 := by
      rw [Ne, Real.sqrt_eq_zero h]; exact h0
    field_simp
    rw [Real.sq_sqrt h]

/-- C57: `normalize(newNorm)` returns a field of norm `newNorm`, and the old norm over the new one -/
theorem C57_normalize {sched : Nat → Nat → List Nat} (hl : ∀ rk, Reduce.Legal (sched rk)) (v : EvnFld) (a : ℝ) (ha : 0 < a) (hv : nrm g sched v ≠ 0) :
    nrm g sched (normalize g sched v a).1 = a ∧ (normalize g sched v a).2 = nrm g sched v / a := by
  unfold normalize
  simp only
  constructor
  · rw [nrm_vec ok eo hl, vec_scale, norm_smul]
    show ‖a / nrm g sched v‖ * _ = _
    have h : 0 ≤ nrm g sched v := Real.sqrt_nonneg _
    rw [Real.norm_eq_abs, abs_of_nonneg (div_nonneg ha.le h), ← nrm_vec ok eo hl v]
    field_simp
  · show 1 / (a / nrm g sched v) = _
    rw [one_div_div]

/-- estimate and norms: `est_k = |v_(k+1)| = sqrt |A v_k|` -/
theorem powEst_eq {sched : Nat → Nat → List Nat} (hl : ∀ rk, Reduce.Legal (sched rk)) (apply : EvnFld → EvnFld) (v : EvnFld) (k : Nat) :
    powEst g sched apply v k = Real.sqrt (nrm g sched (apply (powVec g sched apply v k))) ∧ nrm g sched (powVec g sched apply v (k + 1)) = powEst g sched apply v k := by
  have h1 : powEst g sched apply v k = Real.sqrt (nrm g sched (apply (powVec g sched apply v k))) := by
    show 1 / (1 / Real.sqrt (Real.sqrt (norm2 g sched (apply (powVec g sched apply v k))))) = _
    rw [one_div_one_div]
    rfl
  refine ⟨h1, ?_⟩
  show nrm g sched (normalizeFrom g sched (apply (powVec g sched apply v k)) 1).1 = _
  rw [C57_violated_normalize ok eo hl _ 1 zero_le_one, one_mul, h1]

omit ok eo in
theorem vec_pow (sched : Nat → Nat → List Nat) (apply : EvnFld → EvnFld) (v : EvnFld) (k : Nat) :
    vec g (powVec g sched apply v (k + 1)) = (1 / Real.sqrt (nrm g sched (apply (powVec g sched apply v k)))) • vec g (apply (powVec g sched apply v k)) := by
  show vec g (normalizeFrom g sched (apply (powVec g sched apply v k)) 1).1 = _
  unfold normalizeFrom
  simp only
  rw [vec_scale]
  rfl

/-- what is known of the operator: at least `m2` -/
theorem kernE_lower (V : Coords → Quad) {m2 : ℝ} (hm : 0 < m2) (x : EV (↥(boxP g 0) × Fin 3)) : m2 * ‖x‖ ≤ ‖kernE g V m2 x‖ := by
  by_cases hx : ‖x‖ = 0
  · rw [hx, mul_zero]; exact norm_nonneg _
  · have h1 := kernE_coer ok eo V m2 x
    have h2 := real_inner_le_norm x (kernE g V m2 x)
    have hp : 0 < ‖x‖ := lt_of_le_of_ne (norm_nonneg _) (Ne.symm hx)
    have : m2 * ‖x‖ * ‖x‖ ≤ ‖kernE g V m2 x‖ * ‖x‖ := by nlinarith
    exact le_of_mul_le_mul_right this hp

/-- the ratios of the norms of successive powers do not decrease -/
theorem kernE_ratio (V : Coords → Quad) (m2 : ℝ) (x : EV (↥(boxP g 0) × Fin 3)) : ‖kernE g V m2 x‖ ^ 2 ≤ ‖x‖ * ‖kernE g V m2 (kernE g V m2 x)‖ := by
  rw [← real_inner_self_eq_norm_sq, kernE_symm ok eo]
  exact real_inner_le_norm _ _

/-- C57: the search of the largest eigenvalue of `K = D^+ D + m²`.  The estimate returned lies between `m²` and `Lam`, if `K` does not exceed
`Lam` and `m² ≤ 1 ≤ Lam`; and if the loop ends before the maximal number of iterations, it is not less than `|K v|/|v|`, where `v` is the
starting vector, within one part over 10^14. -/
theorem C57_max_eigenval (J : Junk) {sched : Nat → Nat → List Nat} (hl : ∀ rk, Reduce.Legal (sched rk)) (conf : EoConf) (m2 Lam : ℝ) (h0 : 0 < m2) (h1 : m2 ≤ 1) (hL : 1 ≤ Lam)
    (hK : ∀ x, ‖kernE g (globEo g conf) m2 x‖ ≤ Lam * ‖x‖) (niters : Nat) (noise : EvnFld) (hv : nrm g sched noise ≠ 0) :
    let est := powerLoop g sched (stD2ee g J.ji J.jq J.jv conf m2) niters (max niters 1) 0 0 (normalize g sched noise 1).1
    m2 ≤ est ∧ est ≤ Lam ∧ ∃ k, est = powEst g sched (stD2ee g J.ji J.jq J.jv conf m2) (normalize g sched noise 1).1 k ∧
      (niters ≤ k + 1 ∨ nrm g sched (stD2ee g J.ji J.jq J.jv conf m2 noise) / nrm g sched noise ≤ (1 + 1 / 10 ^ 14) * est) := by
  intro est
  set A := stD2ee g J.ji J.jq J.jv conf m2 with hA
  set v0 := (normalize g sched noise 1).1 with hv0
  obtain ⟨k, -, he, hstop⟩ := powerLoop_stops (g := g) sched A v0 niters (max niters 1) 0 0 (by omega) (by omega) (fun h => absurd h (by omega))
  change est = _ at he
  have n0 : nrm g sched v0 = 1 := (C57_normalize ok eo hl noise 1 zero_lt_one hv).1
  have hlow : ∀ w, m2 * nrm g sched w ≤ nrm g sched (A w) := by
    intro w
    rw [nrm_vec ok eo hl, nrm_vec ok eo hl, hA, vec_apply ok eo]
    exact kernE_lower ok eo _ h0 _
  have hup : ∀ w, nrm g sched (A w) ≤ Lam * nrm g sched w := by
    intro w
    rw [nrm_vec ok eo hl, nrm_vec ok eo hl, hA, vec_apply ok eo]
    exact hK _
  have hb : ∀ j, m2 ≤ nrm g sched (powVec g sched A v0 j) ∧ nrm g sched (powVec g sched A v0 j) ≤ Lam := by
    intro j
    induction j with
    | zero => exact ⟨by show m2 ≤ nrm g sched v0; rw [n0]; exact h1, by show nrm g sched v0 ≤ Lam; rw [n0]; exact hL⟩
    | succ j ih =>
      obtain ⟨e1, e2⟩ := powEst_eq ok eo hl A v0 j
      rw [e2, e1]
      refine ⟨Real.le_sqrt_of_sq_le ?_, Real.sqrt_le_iff.2 ⟨by linarith, ?_⟩⟩
      · have := hlow (powVec g sched A v0 j)
        nlinarith
      · have := hup (powVec g sched A v0 j)
        nlinarith
  have hest : est = nrm g sched (powVec g sched A v0 (k + 1)) := by rw [he, (powEst_eq ok eo hl A v0 k).2]
  refine ⟨by rw [hest]; exact (hb (k + 1)).1, by rw [hest]; exact (hb (k + 1)).2, k, he, ?_⟩
  rcases hstop with h | ⟨hk, hc⟩
  · exact Or.inl h
  right
  -- the ratio at the iteration j
  set n := fun j => nrm g sched (powVec g sched A v0 j) with hn
  set s := fun j => nrm g sched (A (powVec g sched A v0 j)) / n j with hs
  have npos : ∀ j, 0 < n j := fun j => lt_of_lt_of_le h0 (hb j).1
  have hAn : ∀ j, nrm g sched (A (powVec g sched A v0 j)) = s j * n j := fun j => by
    rw [hs]; simp only; rw [div_mul_cancel₀ _ (npos j).ne']
  have hmono : ∀ j, s j ≤ s (j + 1) := by
    intro j
    have q1 := kernE_ratio ok eo (globEo g conf) m2 (vec g (powVec g sched A v0 j))
    rw [← vec_apply ok eo J.ji J.jq J.jv, ← hA] at q1
    set x := powVec g sched A v0 j with hx
    have hAx : 0 < nrm g sched (A x) := lt_of_lt_of_le (mul_pos h0 (npos j)) (hlow x)
    have q2 : vec g (A (powVec g sched A v0 (j + 1))) = (1 / Real.sqrt (nrm g sched (A x))) • kernE g (globEo g conf) m2 (vec g (A x)) := by
      conv_lhs => rw [hA]
      rw [vec_apply ok eo, vec_pow, map_smul]
    have q3 : s (j + 1) = ‖kernE g (globEo g conf) m2 (vec g (A x))‖ / ‖vec g (A x)‖ := by
      show nrm g sched (A (powVec g sched A v0 (j + 1))) / nrm g sched (powVec g sched A v0 (j + 1)) = _
      rw [nrm_vec ok eo hl, nrm_vec ok eo hl, q2, vec_pow, norm_smul, norm_smul, ← hx, mul_div_mul_left]
      have : 0 < Real.sqrt (nrm g sched (A x)) := Real.sqrt_pos.2 hAx
      rw [norm_ne_zero_iff]
      positivity
    rw [q3]
    show nrm g sched (A x) / nrm g sched x ≤ _
    rw [nrm_vec ok eo hl, nrm_vec ok eo hl, div_le_div_iff₀]
    · nlinarith
    · rw [← nrm_vec ok eo hl]; exact npos j
    · rw [← nrm_vec ok eo hl]; exact hAx
  have hs0 : ∀ j, s 0 ≤ s j := by
    intro j
    induction j with
    | zero => exact le_refl _
    | succ j ih => exact ih.trans (hmono j)
  have hs00 : s 0 = nrm g sched (A noise) / nrm g sched noise := by
    show nrm g sched (A v0) / nrm g sched v0 = _
    have e1 : vec g v0 = (1 / nrm g sched noise) • vec g noise := by
      rw [hv0]; unfold normalize; simp only; rw [vec_scale]; rfl
    have e2 : vec g (A v0) = (1 / nrm g sched noise) • vec g (A noise) := by
      rw [hA, vec_apply ok eo, e1, map_smul, vec_apply ok eo]
    rw [nrm_vec ok eo hl (A v0), nrm_vec ok eo hl v0, e1, e2, norm_smul, norm_smul, mul_div_mul_left, ← nrm_vec ok eo hl, ← nrm_vec ok eo hl]
    rw [norm_ne_zero_iff]
    exact one_div_ne_zero hv
  obtain ⟨j, rfl⟩ : ∃ j, k = j + 1 := ⟨k - 1, by omega⟩
  simp only [Nat.add_sub_cancel] at hc
  have c1 : powEst g sched A v0 (j + 1) = n (j + 2) := (powEst_eq ok eo hl A v0 (j + 1)).2.symm
  have c2 : powEst g sched A v0 j = n (j + 1) := (powEst_eq ok eo hl A v0 j).2.symm
  have c3 : n (j + 2) ^ 2 = s (j + 1) * n (j + 1) := by
    rw [← c1, (powEst_eq ok eo hl A v0 (j + 1)).1, Real.sq_sqrt (show 0 ≤ nrm g sched (A (powVec g sched A v0 (j + 1))) from Real.sqrt_nonneg _), hAn]
  rw [c1, c2, sub_le_iff_le_add, div_le_iff₀ (npos _)] at hc
  rw [← hs00, he, c1]
  refine (hs0 (j + 1)).trans ?_
  have p1 := npos (j + 1)
  have p2 := npos (j + 2)
  have : s (j + 1) * n (j + 1) ≤ ((1 + 1 / 10 ^ 14) * n (j + 2)) * n (j + 1) := by
    rw [← c3]
    nlinarith
  exact le_of_mul_le_mul_right this p1

end

end

end Nissa.Rhmc
