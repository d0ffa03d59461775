import Verif.Rational.Expansions

/-!
# Generation and adaptation of the rational approximations (C56)
-/

set_option linter.all false

namespace Nissa.Remez

/-! ### Specification -/

/-- The value of a rational approximation: `cons + ∑ weight/(x+pole)`. -/
noncomputable def RatApprox.eval (a : RatApprox) (x : ℝ) : ℝ :=
  a.cons + ∑ i ∈ Finset.range a.degree, a.weights i / (x + a.poles i)

/-- `a` approximates `x^expo` with relative error `ε` in `[lo,hi]`. -/
def Approximates (a : RatApprox) (expo ε lo hi : ℝ) : Prop :=
  ∀ x, lo ≤ x → x ≤ hi → |a.eval x - x ^ expo| ≤ ε * x ^ expo

/-! ### Generation -/

/-- **C56**: what a successful generation guarantees.  Either the power is `-1` and the expansion is
exactly `1/x`; or the degree is at least one, all smaller degrees have been tried and did not reach
the requested error, and there are `2d+1` distinct nodes and `2d+2` extrema, alternated in the
requested interval, such that a rational function `N/D` of degree `d` with monic denominator takes the
value of the function at the nodes and is within the requested relative error at the extrema; the
expansion returned is the partial-fraction form of `cons·∏(x-root)/∏(x-pole)`, with the roots of `N`
and `D` found by Newton's method. -/
theorem C56_generate (f : ℝ → ℝ) (newton : (Nat → ℝ) → Nat → Option ℝ) (fuel left : Nat)
    (lo hi maxerr : ℝ) (num den : Int) (a : RatApprox) (hlo : lo ≤ hi) (herr : 0 < maxerr)
    (h : generate_approx_of_maxerr f newton fuel left lo hi maxerr num den = .done a) :
    (a.minimum = lo ∧ a.maximum = hi ∧ a.maxerr = maxerr ∧ a.num = num ∧ a.den = den) ∧
      num ≠ den ∧
      (num = -den → a.degree = 1 ∧ ∀ x, a.eval x = 1 / x) ∧
      (num ≠ -den → 0 < a.degree ∧
        (∀ d, 0 < d → d < a.degree → ∃ err out,
          finderGenerate f newton fuel d lo hi maxerr (1 / 100) = .done (err, out) ∧ maxerr < err) ∧
        ∃ (s : Finder ℝ) (node roots poles : Nat → ℝ),
          Certificate a.degree f lo hi s node ∧ s.farther ≤ maxerr ∧
          root_find newton a.degree s.coeff = some (roots, poles, a.cons) ∧
          (a.weights, a.poles) = get_partial_fraction_expansion a.degree roots poles a.cons) := by
  unfold generate_approx_of_maxerr at h
  by_cases h1 : num = den
  · rw [if_pos h1] at h; exact absurd h (by simp)
  rw [if_neg h1] at h
  by_cases h2 : num = -den
  · rw [if_pos h2] at h
    injection h with h
    subst h
    refine ⟨⟨rfl, rfl, rfl, rfl, rfl⟩, h1, fun _ => ⟨rfl, fun x => ?_⟩, fun h' => absurd h2 h'⟩
    simp [RatApprox.eval]
  rw [if_neg h2] at h
  have key : ∀ left degree, 0 < degree →
      (∀ d, 0 < d → d < degree → ∃ err out,
        finderGenerate f newton fuel d lo hi maxerr (1 / 100) = .done (err, out) ∧ maxerr < err) →
      degreeLoop f newton fuel lo hi maxerr num den left degree = .done a →
      (a.minimum = lo ∧ a.maximum = hi ∧ a.maxerr = maxerr ∧ a.num = num ∧ a.den = den) ∧
      0 < a.degree ∧
        (∀ d, 0 < d → d < a.degree → ∃ err out,
          finderGenerate f newton fuel d lo hi maxerr (1 / 100) = .done (err, out) ∧ maxerr < err) ∧
        ∃ (s : Finder ℝ) (node roots poles : Nat → ℝ),
          Certificate a.degree f lo hi s node ∧ s.farther ≤ maxerr ∧
          root_find newton a.degree s.coeff = some (roots, poles, a.cons) ∧
          (a.weights, a.poles) = get_partial_fraction_expansion a.degree roots poles a.cons := by
    intro left
    induction left with
    | zero => intro degree _ _ h; exact absurd h (by simp [degreeLoop])
    | succ left ih =>
      intro degree hd hprev h
      rw [degreeLoop] at h
      cases hg : finderGenerate f newton fuel degree lo hi maxerr (1 / 100) with
      | crash => rw [hg] at h; exact absurd h (by simp)
      | running => rw [hg] at h; exact absurd h (by simp)
      | done r =>
        obtain ⟨err, out⟩ := r
        rw [hg] at h
        simp only at h
        by_cases he : err ≤ maxerr
        · rw [if_pos he] at h
          injection h with h
          subst h
          refine ⟨⟨rfl, rfl, rfl, rfl, rfl⟩, hd, hprev, ?_⟩
          unfold finderGenerate at hg
          cases hl : remezLoop degree f lo hi maxerr (1 / 100) fuel 0 (startFinder degree lo hi) with
          | crash => rw [hl] at hg; exact absurd hg (by simp)
          | running => rw [hl] at hg; exact absurd hg (by simp)
          | done s =>
            rw [hl] at hg
            simp only at hg
            obtain ⟨hc, -, -⟩ := C56_cheb (2 * degree + 1) (by omega) lo hi hlo
            obtain ⟨-, node, cert⟩ := remezLoop_spec degree hd f lo hi maxerr (1 / 100) fuel 0
              (startFinder degree lo hi) s hc (Or.inl rfl) hl
            by_cases hconv : (0 < maxerr ∧ s.farther ≤ maxerr) ∨
                (¬ 0 < maxerr ∧ s.spread ≤ 1 / 100)
            · rw [if_pos hconv] at hg
              cases hr : root_find newton degree s.coeff with
              | none => rw [hr] at hg; exact absurd hg (by simp)
              | some t =>
                obtain ⟨roots, poles, cons⟩ := t
                rw [hr] at hg
                simp only at hg
                injection hg with hg
                obtain ⟨rfl, rfl⟩ := Prod.mk.inj hg
                exact ⟨s, node, roots, poles, cert, he, hr, rfl⟩
            · rw [if_neg hconv] at hg
              injection hg with hg
              obtain ⟨rfl, rfl⟩ := Prod.mk.inj hg
              exact absurd (Or.inl ⟨herr, he⟩) hconv
        · rw [if_neg he] at h
          refine ih (degree + 1) (by omega) (fun d h0 hd' => ?_) h
          rcases Nat.lt_succ_iff_lt_or_eq.1 hd' with h' | rfl
          · exact hprev d h0 h'
          · exact ⟨err, out, hg, not_le.1 he⟩
  obtain ⟨k1, k2, k3, k4⟩ := key left 1 (by omega) (fun d h0 h' => by omega) h
  exact ⟨k1, h1, fun h' => absurd h' h2, fun _ => ⟨k2, k3, k4⟩⟩

/-- The roots come from Newton's method, and the constant is the leading coefficient. -/
theorem root_find_spec (newton : (Nat → ℝ) → Nat → Option ℝ) (d : Nat) (c roots poles : Nat → ℝ)
    (cons : ℝ) (h : root_find newton d c = some (roots, poles, cons)) :
    cons = c d ∧ (∃ p, allRoots newton d c = some (p, roots)) ∧
      ∃ p, allRoots newton d (denPoly d c) = some (p, poles) := by
  unfold root_find at h
  cases h1 : allRoots newton d c with
  | none => rw [h1] at h; exact absurd h (by simp)
  | some s =>
    obtain ⟨p, r⟩ := s
    rw [h1] at h
    simp only at h
    cases h2 : allRoots newton d (denPoly d c) with
    | none => rw [h2] at h; exact absurd h (by simp)
    | some s' =>
      obtain ⟨p', r'⟩ := s'
      rw [h2] at h
      simp only at h
      have := Option.some.inj h
      obtain ⟨rfl, h3⟩ := Prod.mk.inj this
      obtain ⟨rfl, rfl⟩ := Prod.mk.inj h3
      exact ⟨rfl, ⟨p, rfl⟩, ⟨p', rfl⟩⟩

theorem denPoly_at (d : Nat) (c : Nat → ℝ) (x : ℝ) : polyAt d (denPoly d c) x = denAt d c x := by
  unfold polyAt denAt denPoly
  rw [Finset.sum_range_succ, if_pos rfl, one_mul, add_comm]
  congr 1
  refine Finset.sum_congr rfl fun i hi => ?_
  have := Finset.mem_range.1 hi
  rw [if_neg (by omega)]

/-- Newton's method returns exact roots (the idealisation under which the factorised form is exact;
without it see `C56_roots` and `C56_newton`). -/
def ExactNewton (newton : (Nat → ℝ) → Nat → Option ℝ) : Prop :=
  ∀ p n r, newton p n = some r → polyAt n p r = 0

/-- **C56**: with exact roots and distinct poles, the expansion returned takes the values of the
function at the nodes and is within the requested relative error at the extrema. -/
theorem C56_generate_exact (f : ℝ → ℝ) (newton : (Nat → ℝ) → Nat → Option ℝ) (fuel left : Nat)
    (lo hi maxerr : ℝ) (num den : Int) (a : RatApprox) (hlo : lo ≤ hi) (herr : 0 < maxerr)
    (h : generate_approx_of_maxerr f newton fuel left lo hi maxerr num den = .done a)
    (hnd : num ≠ -den) (hex : ExactNewton newton)
    (hdist : ∀ i < a.degree, ∀ j < a.degree, a.poles i = a.poles j → i = j) :
    ∃ node xmax : Nat → ℝ,
      Interlaced (2 * a.degree + 2) lo hi node xmax ∧
      (∀ i < 2 * a.degree + 1, ∀ j < 2 * a.degree + 1, node i = node j → i = j) ∧
      (∀ i < 2 * a.degree + 1, (∀ j < a.degree, node i + a.poles j ≠ 0) →
        a.eval (node i) = f (node i)) ∧
      ∀ i < 2 * a.degree + 2, (∀ j < a.degree, xmax i + a.poles j ≠ 0) →
        relErr (f (xmax i)) (a.eval (xmax i)) ≤ maxerr := by
  obtain ⟨-, -, -, hg⟩ := C56_generate f newton fuel left lo hi maxerr num den a hlo herr h
  obtain ⟨hd, -, s, node, roots, poles, cert, hfar, hroot, hpf⟩ := hg hnd
  obtain ⟨hcons, ⟨p1, hr1⟩, ⟨p2, hr2⟩⟩ := root_find_spec newton a.degree s.coeff roots poles a.cons hroot
  obtain ⟨han1, hf1, -, hz1⟩ := C56_roots newton a.degree s.coeff p1 roots hr1
  obtain ⟨han2, hf2, -, hz2⟩ := C56_roots newton a.degree (denPoly a.degree s.coeff) p2 poles hr2
  have hN : ∀ x, numAt a.degree s.coeff x =
      a.cons * ∏ j ∈ Finset.range a.degree, (x - roots j) := fun x => by
    rw [hcons]
    exact hz1 (fun j hj => hex _ _ _ (hf1 j hj).1) x
  have hD : ∀ x, denAt a.degree s.coeff x = ∏ j ∈ Finset.range a.degree, (x - poles j) := fun x => by
    rw [← denPoly_at, hz2 (fun j hj => hex _ _ _ (hf2 j hj).1) x]
    have : denPoly a.degree s.coeff a.degree = 1 := by unfold denPoly; rw [if_pos rfl]
    rw [this, one_mul]
  -- poles returned are the opposite of the roots of the denominator
  obtain ⟨hw, hp⟩ : a.weights = (get_partial_fraction_expansion a.degree roots poles a.cons).1 ∧
      a.poles = (get_partial_fraction_expansion a.degree roots poles a.cons).2 := by
    rw [← hpf]; exact ⟨rfl, rfl⟩
  have hperm : ∃ e : Nat → Nat, PermOn a.degree e ∧ ∀ i < a.degree, a.poles i = -poles (e i) := by
    rw [hp]
    obtain ⟨⟨e, he, hs⟩, -⟩ := sortPoles_spec a.degree
      ((fun i => residue a.degree (fun i => expandRoots a.degree roots i -
        expandRoots a.degree poles i) poles a.cons i, fun i => -poles i))
    exact ⟨e, he, fun i hi => (hs i hi).2⟩
  obtain ⟨e, he, hpe⟩ := hperm
  have hdp : ∀ i < a.degree, ∀ j < a.degree, poles i = poles j → i = j := by
    intro i hi j hj hij
    obtain ⟨i', hi', rfl⟩ := he.surj i hi
    obtain ⟨j', hj', rfl⟩ := he.surj j hj
    have : a.poles i' = a.poles j' := by rw [hpe i' hi', hpe j' hj', hij]
    rw [hdist i' hi' j' hj' this]
  obtain ⟨hval, -, -⟩ := C56_fraction_expansion a.degree roots poles a.cons hdp
  have heval : ∀ x, (∀ j < a.degree, x + a.poles j ≠ 0) →
      denAt a.degree s.coeff x ≠ 0 ∧
        a.eval x = numAt a.degree s.coeff x / denAt a.degree s.coeff x := by
    intro x hx
    have hx' : ∀ i < a.degree, x ≠ poles i := by
      intro i hi hxi
      obtain ⟨i', hi', rfl⟩ := he.surj i hi
      apply hx i' hi'
      rw [hpe i' hi', hxi]
      ring
    constructor
    · rw [hD]
      exact Finset.prod_ne_zero_iff.2 fun i hi => sub_ne_zero.2 (hx' i (Finset.mem_range.1 hi))
    · rw [hN, hD, ← hval x hx']
      unfold RatApprox.eval
      rw [hw, hp]
  refine ⟨node, s.xmax, cert.inter, cert.distinct, fun i hi hx => ?_, fun i hi hx => ?_⟩
  · obtain ⟨h1, h2⟩ := heval _ hx
    rw [h2, cert.interp i hi, mul_div_assoc, div_self h1, mul_one]
  · obtain ⟨h1, h2⟩ := heval _ hx
    rw [h2]
    exact (cert.far i hi).trans hfar

/-! ### Adaptation -/

theorem enl_gen_pos : 0 < enl_gen := Real.rpow_pos_of_pos (by norm_num) _

theorem enl_gen_four : enl_gen ^ 4 = 2 := by
  unfold enl_gen
  rw [← Real.rpow_natCast, ← Real.rpow_mul (by norm_num)]
  norm_num

theorem enl_gen_sq : enl_gen ^ 2 * enl_gen ^ 2 = 2 := by
  rw [← enl_gen_four]; ring

theorem rescale_eval (a : RatApprox) (lo hi expo x : ℝ)
    (hs : 0 < Real.sqrt (hi * lo) / Real.sqrt (a.minimum * a.maximum)) :
    (rescale a lo hi expo).eval (Real.sqrt (hi * lo) / Real.sqrt (a.minimum * a.maximum) * x) =
      (Real.sqrt (hi * lo) / Real.sqrt (a.minimum * a.maximum)) ^ expo * a.eval x := by
  set s := Real.sqrt (hi * lo) / Real.sqrt (a.minimum * a.maximum) with hs'
  show a.cons * s ^ expo + ∑ i ∈ Finset.range a.degree,
      (a.weights i * (s * s ^ expo)) / (s * x + a.poles i * s) = _
  unfold RatApprox.eval
  rw [mul_add, mul_comm a.cons, Finset.mul_sum]
  congr 1
  refine Finset.sum_congr rfl fun i _ => ?_
  rw [show s * x + a.poles i * s = s * (x + a.poles i) by ring,
    show a.weights i * (s * s ^ expo) = s * (s ^ expo * a.weights i) by ring,
    mul_div_mul_left _ _ hs.ne', mul_div_assoc]

/-- **C56**: a stored approximation that passes the check, once rescaled, has the same relative error
over a range that contains the requested one, and its range stays centred on it. -/
theorem C56_rescale (a : RatApprox) (lo hi expo maxerr ε : ℝ) (hlo : 0 < lo) (hhi : lo ≤ hi)
    (hmin : 0 < a.minimum) (hmax : a.minimum ≤ a.maximum)
    (hv : check_approx_validity a lo hi expo maxerr)
    (ha : Approximates a expo ε a.minimum a.maximum) :
    (rescale a lo hi expo).minimum ≤ lo ∧ hi ≤ (rescale a lo hi expo).maximum ∧
      0 < (rescale a lo hi expo).minimum ∧
      (rescale a lo hi expo).minimum * (rescale a lo hi expo).maximum = lo * hi ∧
      Approximates (rescale a lo hi expo) expo ε (rescale a lo hi expo).minimum
        (rescale a lo hi expo).maximum ∧
      Approximates (rescale a lo hi expo) expo ε lo hi := by
  have hhip : 0 < hi := by linarith
  have hmaxp : 0 < a.maximum := by linarith
  set s := Real.sqrt (hi * lo) / Real.sqrt (a.minimum * a.maximum) with hs'
  have hs : 0 < s := div_pos (Real.sqrt_pos.2 (by positivity)) (Real.sqrt_pos.2 (by positivity))
  have hs2 : s ^ 2 = hi * lo / (a.minimum * a.maximum) := by
    rw [hs', div_pow, Real.sq_sqrt (by positivity), Real.sq_sqrt (by positivity)]
  have e1 : (rescale a lo hi expo).minimum = a.minimum * s := rfl
  have e2 : (rescale a lo hi expo).maximum = a.maximum * s := rfl
  have hcond : hi * a.minimum ≤ a.maximum * lo := by
    have := hv.2.2.1
    rwa [div_le_div_iff₀ hlo hmin] at this
  have sq1 : (a.minimum * s) ^ 2 ≤ lo ^ 2 := by
    rw [mul_pow, hs2, show a.minimum ^ 2 * (hi * lo / (a.minimum * a.maximum)) =
      a.minimum * hi * lo / a.maximum by field_simp, div_le_iff₀ hmaxp]
    nlinarith
  have sq2 : hi ^ 2 ≤ (a.maximum * s) ^ 2 := by
    rw [mul_pow, hs2, show a.maximum ^ 2 * (hi * lo / (a.minimum * a.maximum)) =
      a.maximum * hi * lo / a.minimum by field_simp, le_div_iff₀ hmin]
    nlinarith
  have c1 : a.minimum * s ≤ lo := by
    exact le_of_sq_le_sq sq1 hlo.le
  have c2 : hi ≤ a.maximum * s := le_of_sq_le_sq sq2 (by positivity)
  have happ : Approximates (rescale a lo hi expo) expo ε (a.minimum * s) (a.maximum * s) := by
    intro x hx1 hx2
    have hxs : x = s * (x / s) := by field_simp
    have hy1 : a.minimum ≤ x / s := by rw [le_div_iff₀ hs]; exact hx1
    have hy2 : x / s ≤ a.maximum := by rw [div_le_iff₀ hs]; exact hx2
    have hy0 : 0 ≤ x / s := by linarith
    have hse : 0 < s ^ expo := Real.rpow_pos_of_pos hs _
    have h1 := ha (x / s) hy1 hy2
    have h2 : (rescale a lo hi expo).eval x = s ^ expo * a.eval (x / s) := by
      conv_lhs => rw [hxs]
      exact rescale_eval a lo hi expo (x / s) hs
    have h3 : x ^ expo = s ^ expo * (x / s) ^ expo := by
      conv_lhs => rw [hxs]
      rw [Real.mul_rpow hs.le hy0]
    rw [h2, h3, ← mul_sub, abs_mul, abs_of_pos hse]
    calc s ^ expo * |a.eval (x / s) - (x / s) ^ expo| ≤ s ^ expo * (ε * (x / s) ^ expo) :=
          mul_le_mul_of_nonneg_left h1 hse.le
      _ = ε * (s ^ expo * (x / s) ^ expo) := by ring
  rw [e1, e2]
  refine ⟨c1, c2, by positivity, ?_, happ, fun x h1 h2 => happ x (by linarith) (by linarith)⟩
  calc a.minimum * s * (a.maximum * s) = a.minimum * a.maximum * s ^ 2 := by ring
    _ = lo * hi := by rw [hs2]; field_simp

/-- **C56**: an approximation generated for a range stays usable while the condition number changes
by less than `√2` either way, and is discarded beyond. -/
theorem C56_reuse (a : RatApprox) (lo hi lo' hi' expo maxerr : ℝ) (hlo : 0 < lo) (hhi : 0 < hi)
    (hlo' : 0 < lo') (hhi' : 0 < hi') (hdeg : a.degree ≠ 0) (hexp : expo = (a.num : ℝ) / a.den)
    (hmin : a.minimum = lo / enl_gen) (hmax : a.maximum = hi * enl_gen) (herr : a.maxerr = maxerr)
    (hpos : 0 ≤ maxerr) :
    check_approx_validity a lo' hi' expo maxerr ↔
      (hi' / lo' ≤ Real.sqrt 2 * (hi / lo) ∧ hi / lo < Real.sqrt 2 * (hi' / lo')) := by
  have hg := enl_gen_pos
  have hs2 : enl_gen ^ 2 = Real.sqrt 2 := by
    rw [eq_comm, Real.sqrt_eq_iff_mul_self_eq (by norm_num) (by positivity)]
    exact enl_gen_sq.symm
  have hc : a.maximum / a.minimum = Real.sqrt 2 * (hi / lo) := by
    rw [hmin, hmax, ← hs2]
    field_simp
  have hss : Real.sqrt 2 * Real.sqrt 2 = 2 := Real.mul_self_sqrt (by norm_num)
  have hsp : 0 < Real.sqrt 2 := Real.sqrt_pos.2 (by norm_num)
  have hcp : 0 < hi' / lo' := div_pos hhi' hlo'
  unfold check_approx_validity
  rw [hc, enl_gen_four, ← hexp, sub_self, abs_zero, herr, div_lt_iff₀ hcp]
  constructor
  · rintro ⟨-, -, h1, h2, -⟩
    refine ⟨h1, ?_⟩
    have : Real.sqrt 2 * (hi / lo) < Real.sqrt 2 * (Real.sqrt 2 * (hi' / lo')) := by
      rw [← mul_assoc, hss]; exact h2
    exact lt_of_mul_lt_mul_left this hsp.le
  · rintro ⟨h1, h2⟩
    refine ⟨hdeg, by positivity, h1, ?_, by linarith, by linarith⟩
    have := mul_lt_mul_of_pos_left h2 hsp
    rwa [← mul_assoc (Real.sqrt 2) (Real.sqrt 2), hss] at this

/-! ### `set_expansions` -/

/-- **C56**: every approximation to generate is given to an existing rank, in order, and no rank gets
more than the average rounded up. -/
theorem C56_ranks (nto nranks : Nat) (hr : 0 < nranks) :
    (∀ ito < nto, rankRecreating nto nranks ito < nranks) ∧
      (∀ i j, i ≤ j → rankRecreating nto nranks i ≤ rankRecreating nto nranks j) ∧
      ∀ r, ((Finset.range nto).filter fun i => rankRecreating nto nranks i = r).card ≤
        (nto + nranks - 1) / nranks := by
  set c := (nto + nranks - 1) / nranks with hc
  have hle : nto ≤ c * nranks := by
    have h1 := Nat.div_add_mod (nto + nranks - 1) nranks
    have h2 := Nat.mod_lt (nto + nranks - 1) hr
    rw [← hc] at h1
    rw [mul_comm]
    omega
  refine ⟨fun ito hi => ?_, fun i j hij => ?_, fun r => ?_⟩
  · unfold rankRecreating
    rw [← hc]
    refine Nat.div_lt_of_lt_mul ?_
    omega
  · exact Nat.div_le_div_right hij
  · by_cases h0 : nto = 0
    · subst h0; simp
    have hcp : 0 < c := by
      rcases Nat.eq_zero_or_pos c with h | h
      · rw [h] at hle; omega
      · exact h
    calc ((Finset.range nto).filter fun i => rankRecreating nto nranks i = r).card
        ≤ (Finset.Ico (r * c) (r * c + c)).card := by
          refine Finset.card_le_card fun i hi => ?_
          rw [Finset.mem_filter] at hi
          have h1 : i / c = r := hi.2
          rw [Finset.mem_Ico]
          have h2 := Nat.div_add_mod i c
          have h3 := Nat.mod_lt i hcp
          rw [h1, mul_comm] at h2
          omega
      _ = c := by rw [Nat.card_Ico]; omega

/-- What `set_expansions` does with the approximation number `i` of a quark when the stored one is
`a`. -/
noncomputable def numOf (q : FlavSpec) : Int := q.deg
def denOf (q : FlavSpec) (i : Nat) : Int := extra_fact q i * q.npf

def StoredValid (pfr mdr : ℝ) (q : FlavSpec) (i : Nat) (a : RatApprox) : Prop :=
  check_approx_validity a (eigMin q) (eigMax q) ((numOf q : ℝ) / denOf q i) (errOf pfr mdr i)

noncomputable def kept (q : FlavSpec) (i : Nat) (a : RatApprox) : RatApprox :=
  if numOf q = -denOf q i then { a with num := numOf q, den := denOf q i }
  else rescale { a with num := numOf q, den := denOf q i } (eigMin q) (eigMax q)
    ((numOf q : ℝ) / denOf q i)

/-- State after the first `m` approximations. -/
structure Prepared (pfr mdr : ℝ) (q : Nat → FlavSpec) (a : Nat → RatApprox) (m : Nat)
    (s : (Nat → RatApprox) × List Todo) : Prop where
  later : ∀ k, m ≤ k → s.1 k = a k
  valid : ∀ k < m, StoredValid pfr mdr (q (k / 3)) (k % 3) (a k) →
    s.1 k = kept (q (k / 3)) (k % 3) (a k) ∧ ∀ t ∈ s.2, t.index ≠ k
  invalid : ∀ k < m, ¬ StoredValid pfr mdr (q (k / 3)) (k % 3) (a k) →
    (s.1 k).num = numOf (q (k / 3)) ∧ (s.1 k).den = denOf (q (k / 3)) (k % 3) ∧
    (⟨k, eigMin (q (k / 3)) / enl_gen, eigMax (q (k / 3)) * enl_gen, errOf pfr mdr (k % 3)⟩ : Todo) ∈
      s.2
  bound : ∀ t ∈ s.2, t.index < m
  nodup : (s.2.map Todo.index).Nodup

theorem prepareOne_step (pfr mdr : ℝ) (q : Nat → FlavSpec) (a : Nat → RatApprox) (iflav i : Nat)
    (hi : i < 3) (s : (Nat → RatApprox) × List Todo)
    (h : Prepared pfr mdr q a (i + 3 * iflav) s) :
    Prepared pfr mdr q a (i + 3 * iflav + 1) (prepareOne pfr mdr (q iflav) iflav i s) := by
  set k := i + 3 * iflav with hk
  have e1 : k / 3 = iflav := by omega
  have e2 : k % 3 = i := by omega
  have hak : s.1 k = a k := h.later k le_rfl
  have hv : StoredValid pfr mdr (q iflav) i (a k) ↔ check_approx_validity (s.1 k) (eigMin (q iflav))
      (eigMax (q iflav)) (((q iflav).deg : ℝ) / ((extra_fact (q iflav) i * (q iflav).npf : Int) : ℝ))
      (errOf pfr mdr i) := by
    rw [hak]; rfl
  unfold prepareOne
  simp only
  rw [← hk]
  by_cases hval : StoredValid pfr mdr (q iflav) i (a k)
  · rw [if_pos (hv.1 hval)]
    refine ⟨fun l hl => ?_, fun l hl hvl => ?_, fun l hl hvl => ?_, fun t ht => ?_, h.nodup⟩
    · simp only
      rw [Function.update_of_ne (by omega)]
      exact h.later l (by omega)
    · by_cases a1 : l = k
      · subst a1
        simp only
        rw [Function.update_self, e1, e2, hak]
        refine ⟨?_, fun t ht => by have := h.bound t ht; omega⟩
        unfold kept numOf denOf
        rfl
      · simp only
        rw [Function.update_of_ne a1]
        exact h.valid l (by omega) hvl
    · by_cases a1 : l = k
      · subst a1; rw [e1, e2] at hvl; exact absurd hval hvl
      · simp only
        rw [Function.update_of_ne a1]
        exact h.invalid l (by omega) hvl
    · have := h.bound t ht; omega
  · rw [if_neg (fun hh => hval (hv.2 hh))]
    refine ⟨fun l hl => ?_, fun l hl hvl => ?_, fun l hl hvl => ?_, fun t ht => ?_, ?_⟩
    · simp only
      rw [Function.update_of_ne (by omega)]
      exact h.later l (by omega)
    · by_cases a1 : l = k
      · subst a1; rw [e1, e2] at hvl; exact absurd hvl hval
      · simp only
        rw [Function.update_of_ne a1]
        obtain ⟨v1, v2⟩ := h.valid l (by omega) hvl
        refine ⟨v1, fun t ht => ?_⟩
        rcases List.mem_append.1 ht with h' | h'
        · exact v2 t h'
        · rw [List.mem_singleton] at h'
          subst h'
          exact fun hh => a1 hh.symm
    · by_cases a1 : l = k
      · subst a1
        simp only
        rw [Function.update_self, e1, e2]
        exact ⟨rfl, rfl, List.mem_append.2 (Or.inr (List.mem_singleton.2 rfl))⟩
      · simp only
        rw [Function.update_of_ne a1]
        obtain ⟨v1, v2, v3⟩ := h.invalid l (by omega) hvl
        exact ⟨v1, v2, List.mem_append.2 (Or.inl v3)⟩
    · rcases List.mem_append.1 ht with h' | h'
      · have := h.bound t h'; omega
      · rw [List.mem_singleton] at h'
        subst h'
        simp only
        omega
    · simp only [List.map_append, List.map_cons, List.map_nil]
      rw [List.nodup_append]
      refine ⟨h.nodup, List.nodup_singleton _, ?_⟩
      rintro x hx y hy rfl
      rw [List.mem_singleton] at hy
      obtain ⟨t, ht, rfl⟩ := List.mem_map.1 hx
      have := h.bound t ht
      omega

theorem prepareAll_spec (pfr mdr : ℝ) (q : Nat → FlavSpec) (nflavs : Nat) (a : Nat → RatApprox) :
    Prepared pfr mdr q a (3 * nflavs) (prepareAll pfr mdr q nflavs a) := by
  unfold prepareAll
  refine up_inv (fun m s => Prepared pfr mdr q a (3 * m) s) _ _ nflavs ?_ ?_
  · exact ⟨fun _ _ => rfl, fun k hk => by omega, fun k hk => by omega, by simp, by simp⟩
  · intro iflav _ s hs
    have := up_inv (fun m s => Prepared pfr mdr q a (m + 3 * iflav) s)
      (fun i s => prepareOne pfr mdr (q iflav) iflav i s) s 3 (by simpa using hs)
      (fun i hi s h => by
        have := prepareOne_step pfr mdr q a iflav i hi s h
        rwa [show i + 3 * iflav + 1 = i + 1 + 3 * iflav by omega] at this)
    rwa [show 3 + 3 * iflav = 3 * (iflav + 1) by omega] at this

/-- The indices of the list are all different. -/
def DistinctIdx (todo : List Todo) : Prop :=
  ∀ (i j : Nat) (t u : Todo), todo[i]? = some t → todo[j]? = some u → t.index = u.index → i = j

theorem distinctIdx_of_nodup (todo : List Todo) (h : (todo.map Todo.index).Nodup) :
    DistinctIdx todo := by
  intro i j t u hi hj htu
  obtain ⟨hi', hti⟩ := List.getElem?_eq_some_iff.1 hi
  obtain ⟨hj', huj⟩ := List.getElem?_eq_some_iff.1 hj
  have := (List.Nodup.getElem_inj_iff h (i := i) (j := j) (hi := by simpa using hi')
    (hj := by simpa using hj')).1
  apply this
  rw [List.getElem_map, List.getElem_map, hti, huj, htu]

theorem recreate_spec (gen : ℝ → ℝ → ℝ → Int → Int → RatApprox) (nranks rank : Nat)
    (todo : List Todo) (hd : DistinctIdx todo) (a : Nat → RatApprox) :
    (∀ ito t, todo[ito]? = some t → rankRecreating todo.length nranks ito = rank →
      recreate gen nranks rank todo a t.index =
        gen t.min t.max t.maxerr (a t.index).num (a t.index).den) ∧
      ∀ k, (∀ t ∈ todo, t.index ≠ k) → recreate gen nranks rank todo a k = a k := by
  have main := up_inv (fun m (b : Nat → RatApprox) =>
      (∀ ito t, ito < m → todo[ito]? = some t → rankRecreating todo.length nranks ito = rank →
        b t.index = gen t.min t.max t.maxerr (a t.index).num (a t.index).den) ∧
      ∀ k, (∀ ito t, ito < m → todo[ito]? = some t → t.index ≠ k) → b k = a k)
    (fun ito a => if rankRecreating todo.length nranks ito = rank then
      match todo[ito]? with
      | some t => Function.update a t.index
          (gen t.min t.max t.maxerr (a t.index).num (a t.index).den)
      | none => a
    else a) a todo.length ⟨fun ito t h => by omega, fun _ _ => rfl⟩ ?_
  · refine ⟨fun ito t h1 h2 => main.1 ito t (List.getElem?_eq_some_iff.1 h1).1 h1 h2, fun k hk => ?_⟩
    exact main.2 k fun ito t _ ht => hk t (List.mem_of_getElem? ht)
  · rintro m hm b ⟨h1, h2⟩
    obtain ⟨u, hu⟩ : ∃ u, todo[m]? = some u := ⟨todo[m], List.getElem?_eq_getElem hm⟩
    have hbu : b u.index = a u.index := h2 u.index fun ito t hlt ht heq => by
      have := hd ito m t u ht hu heq
      omega
    beta_reduce
    by_cases hr : rankRecreating todo.length nranks m = rank
    · rw [if_pos hr, hu]
      simp only
      refine ⟨fun ito t hlt ht hrr => ?_, fun k hk => ?_⟩
      · by_cases hm' : ito = m
        · subst hm'
          have : t = u := Option.some.inj (ht.symm.trans hu)
          subst this
          rw [Function.update_self, hbu]
        · rw [Function.update_of_ne (fun heq => hm' (hd ito m t u ht hu heq))]
          exact h1 ito t (by omega) ht hrr
      · rw [Function.update_of_ne (fun heq => hk m u (by omega) hu heq.symm)]
        exact h2 k fun ito t hlt ht => hk ito t (by omega) ht
    · rw [if_neg hr]
      refine ⟨fun ito t hlt ht hrr => ?_, fun k hk => h2 k fun ito t hlt ht => hk ito t (by omega) ht⟩
      by_cases hm' : ito = m
      · subst hm'; exact absurd hrr hr
      · exact h1 ito t (by omega) ht hrr

theorem collect_spec (nranks : Nat) (todo : List Todo) (hd : DistinctIdx todo)
    (a : Nat → Nat → RatApprox) (r : Nat) :
    (∀ ito t, todo[ito]? = some t → collect nranks todo a r t.index =
      a (rankRecreating todo.length nranks ito) t.index) ∧
      ∀ k, (∀ t ∈ todo, t.index ≠ k) → collect nranks todo a r k = a r k := by
  have main := up_inv (fun m (b : Nat → Nat → RatApprox) =>
      (∀ r ito t, ito < m → todo[ito]? = some t →
        b r t.index = a (rankRecreating todo.length nranks ito) t.index) ∧
      ∀ r k, (∀ ito t, ito < m → todo[ito]? = some t → t.index ≠ k) → b r k = a r k)
    (fun ito a => match todo[ito]? with
    | some t => fun r => Function.update (a r) t.index
        (a (rankRecreating todo.length nranks ito) t.index)
    | none => a) a todo.length ⟨fun r ito t h => by omega, fun _ _ _ => rfl⟩ ?_
  · refine ⟨fun ito t h1 => main.1 r ito t (List.getElem?_eq_some_iff.1 h1).1 h1, fun k hk => ?_⟩
    exact main.2 r k fun ito t _ ht => hk t (List.mem_of_getElem? ht)
  · rintro m hm b ⟨h1, h2⟩
    obtain ⟨u, hu⟩ : ∃ u, todo[m]? = some u := ⟨todo[m], List.getElem?_eq_getElem hm⟩
    have hbu : ∀ r, b r u.index = a r u.index := fun r => h2 r u.index fun ito t hlt ht heq => by
      have := hd ito m t u ht hu heq
      omega
    simp only [hu]
    refine ⟨fun r ito t hlt ht => ?_, fun r k hk => ?_⟩
    · by_cases hm' : ito = m
      · subst hm'
        have : t = u := Option.some.inj (ht.symm.trans hu)
        subst this
        rw [Function.update_self, hbu]
      · rw [Function.update_of_ne (fun heq => hm' (hd ito m t u ht hu heq))]
        exact h1 r ito t (by omega) ht
    · rw [Function.update_of_ne (fun heq => hk m u (by omega) hu heq.symm)]
      exact h2 r k fun ito t hlt ht => hk ito t (by omega) ht

/-- **C56**: the outcome of `set_expansions`.  On every rank the approximation number `i` of flavour
`iflav` is the stored one adapted to the present range if it passes the check, a new one for the
range enlarged by `2^¼` on both sides otherwise: the same on all the ranks, whatever their number. -/
theorem C56_set_expansions (gen : ℝ → ℝ → ℝ → Int → Int → RatApprox) (nranks : Nat) (pfr mdr : ℝ)
    (q : Nat → FlavSpec) (nflavs : Nat) (a : Nat → RatApprox) (rank iflav i : Nat)
    (hf : iflav < nflavs) (hi : i < 3) :
    (StoredValid pfr mdr (q iflav) i (a (3 * iflav + i)) →
      set_expansions gen nranks pfr mdr q nflavs a rank (3 * iflav + i) =
        kept (q iflav) i (a (3 * iflav + i))) ∧
      (¬ StoredValid pfr mdr (q iflav) i (a (3 * iflav + i)) →
        set_expansions gen nranks pfr mdr q nflavs a rank (3 * iflav + i) =
          gen (eigMin (q iflav) / enl_gen) (eigMax (q iflav) * enl_gen) (errOf pfr mdr i)
            (numOf (q iflav)) (denOf (q iflav) i)) := by
  have P := prepareAll_spec pfr mdr q nflavs a
  set p := prepareAll pfr mdr q nflavs a with hp
  have hd := distinctIdx_of_nodup p.2 P.nodup
  have e1 : (3 * iflav + i) / 3 = iflav := by omega
  have e2 : (3 * iflav + i) % 3 = i := by omega
  have hdef : set_expansions gen nranks pfr mdr q nflavs a =
      collect nranks p.2 fun rank => recreate gen nranks rank p.2 p.1 := rfl
  rw [hdef]
  constructor
  · intro hv
    have := P.valid (3 * iflav + i) (by omega)
    rw [e1, e2] at this
    obtain ⟨v1, v2⟩ := this hv
    rw [(collect_spec nranks p.2 hd _ rank).2 _ v2, (recreate_spec gen nranks rank p.2 hd p.1).2 _ v2,
      v1]
  · intro hv
    have := P.invalid (3 * iflav + i) (by omega)
    rw [e1, e2] at this
    obtain ⟨v1, v2, v3⟩ := this hv
    obtain ⟨ito, hlt, hito⟩ := List.getElem_of_mem v3
    have hito' : p.2[ito]? = some ⟨3 * iflav + i, eigMin (q iflav) / enl_gen,
        eigMax (q iflav) * enl_gen, errOf pfr mdr i⟩ := by
      rw [List.getElem?_eq_getElem hlt, hito]
    have c := (collect_spec nranks p.2 hd (fun rank => recreate gen nranks rank p.2 p.1) rank).1 ito _
      hito'
    have r := (recreate_spec gen nranks (rankRecreating p.2.length nranks ito) p.2 hd p.1).1 ito _
      hito' rfl
    simp only at c r
    rw [c, r, v1, v2]

/-- A stored approximation in order: its range is positive, it approximates the power written in it
within the error written in it, and for the power `-1` it is the exact `1/x`. -/
structure Sound (a : RatApprox) : Prop where
  min_pos : 0 < a.minimum
  min_le : a.minimum ≤ a.maximum
  approx : Approximates a ((a.num : ℝ) / a.den) a.maxerr a.minimum a.maximum
  exact : a.num = -a.den → ∀ x, a.eval x = 1 / x

theorem expo_eq (p q p' q' : Int) (hq : q ≠ 0) (hq' : q' ≠ 0) (hb : |q| * |q'| ≤ 10 ^ 14)
    (h : |(p : ℝ) / q - (p' : ℝ) / q'| < 1 / 10 ^ 14) : (p : ℝ) / q = (p' : ℝ) / q' := by
  have hqr : (q : ℝ) ≠ 0 := by exact_mod_cast hq
  have hqr' : (q' : ℝ) ≠ 0 := by exact_mod_cast hq'
  by_contra hne
  have hz : p * q' - p' * q ≠ 0 := by
    intro h0
    apply hne
    rw [div_eq_div_iff hqr hqr']
    have : p * q' = p' * q := by omega
    exact_mod_cast this
  have h1 : (1 : ℝ) ≤ |((p * q' - p' * q : Int) : ℝ)| := by
    rw [← Int.cast_abs]
    exact_mod_cast Int.one_le_abs hz
  have h2 : (p : ℝ) / q - (p' : ℝ) / q' = ((p * q' - p' * q : Int) : ℝ) / (q * q') := by
    push_cast
    field_simp
  rw [h2, abs_div, div_lt_iff₀ (by positivity), abs_mul] at h
  have h3 : |(q : ℝ)| * |(q' : ℝ)| ≤ 10 ^ 14 := by
    rw [← Int.cast_abs, ← Int.cast_abs]
    exact_mod_cast hb
  have : (1 : ℝ) / 10 ^ 14 * (|(q : ℝ)| * |(q' : ℝ)|) ≤ 1 := by
    rw [one_div, inv_mul_le_iff₀ (by positivity), mul_one]
    exact h3
  linarith

/-- **C56**: after `set_expansions`, if what was stored was in order and what is generated is, every
approximation approximates its power, `deg/(2·root·npf)` for the pseudofermions and
`-deg/(root·npf)` for the action and the force, within twice the requested error, all over the range
between the smallest and the largest eigenvalue. -/
theorem C56_accurate (gen : ℝ → ℝ → ℝ → Int → Int → RatApprox) (nranks : Nat) (pfr mdr : ℝ)
    (q : Nat → FlavSpec) (nflavs : Nat) (a : Nat → RatApprox) (rank iflav i : Nat)
    (hf : iflav < nflavs) (hi : i < 3)
    (hgen : ∀ lo hi e n d, lo = eigMin (q iflav) / enl_gen → hi = eigMax (q iflav) * enl_gen →
      e = errOf pfr mdr i → n = numOf (q iflav) → d = denOf (q iflav) i →
      (gen lo hi e n d).num = n ∧ (gen lo hi e n d).den = d ∧
      Approximates (gen lo hi e n d) ((n : ℝ) / d) e lo hi)
    (hstored : (a (3 * iflav + i)).degree ≠ 0 → Sound (a (3 * iflav + i)) ∧
      (a (3 * iflav + i)).den ≠ 0 ∧ |denOf (q iflav) i| * |(a (3 * iflav + i)).den| ≤ 10 ^ 14)
    (hden : denOf (q iflav) i ≠ 0)
    (hlo : 0 < eigMin (q iflav)) (hhi : eigMin (q iflav) ≤ eigMax (q iflav)) :
    (set_expansions gen nranks pfr mdr q nflavs a rank (3 * iflav + i)).num = numOf (q iflav) ∧
    (set_expansions gen nranks pfr mdr q nflavs a rank (3 * iflav + i)).den = denOf (q iflav) i ∧
    Approximates (set_expansions gen nranks pfr mdr q nflavs a rank (3 * iflav + i))
      ((numOf (q iflav) : ℝ) / denOf (q iflav) i) (2 * errOf pfr mdr i) (eigMin (q iflav))
      (eigMax (q iflav)) := by
  obtain ⟨hv, hn⟩ := C56_set_expansions gen nranks pfr mdr q nflavs a rank iflav i hf hi
  have herr : 0 ≤ errOf pfr mdr i := by
    unfold errOf
    split_ifs <;> exact Real.sqrt_nonneg _
  by_cases hval : StoredValid pfr mdr (q iflav) i (a (3 * iflav + i))
  · rw [hv hval]
    obtain ⟨hs, hd, hb⟩ := hstored hval.1
    have hexpo := expo_eq _ _ _ _ hden hd hb hval.2.1
    have hwide : ∀ b : RatApprox, Approximates b ((numOf (q iflav) : ℝ) / denOf (q iflav) i)
        (a (3 * iflav + i)).maxerr (eigMin (q iflav)) (eigMax (q iflav)) →
        Approximates b ((numOf (q iflav) : ℝ) / denOf (q iflav) i) (2 * errOf pfr mdr i)
          (eigMin (q iflav)) (eigMax (q iflav)) := by
      intro b hb x h1 h2
      refine (hb x h1 h2).trans (mul_le_mul_of_nonneg_right ?_ ?_)
      · have := hval.2.2.2.2.2
        linarith
      · exact Real.rpow_nonneg (by linarith) _
    unfold kept
    by_cases hm : numOf (q iflav) = -denOf (q iflav) i
    · rw [if_pos hm]
      refine ⟨rfl, rfl, ?_⟩
      have hex : (a (3 * iflav + i)).num = -(a (3 * iflav + i)).den := by
        have hdr : ((a (3 * iflav + i)).den : ℝ) ≠ 0 := by exact_mod_cast hd
        have hdr' : (denOf (q iflav) i : ℝ) ≠ 0 := by exact_mod_cast hden
        rw [hm, div_eq_div_iff hdr' hdr] at hexpo
        push_cast at hexpo
        have h1 : (denOf (q iflav) i : ℝ) * (((a (3 * iflav + i)).num : ℝ) +
            (a (3 * iflav + i)).den) = 0 := by linarith
        rcases mul_eq_zero.1 h1 with h2 | h2
        · exact absurd h2 hdr'
        · have : ((a (3 * iflav + i)).num : ℝ) = ((-(a (3 * iflav + i)).den : Int) : ℝ) := by
            push_cast; linarith
          exact_mod_cast this
      intro x h1 h2
      have hx : 0 < x := by linarith
      have hev : RatApprox.eval { a (3 * iflav + i) with
          num := numOf (q iflav), den := denOf (q iflav) i } x = 1 / x := hs.exact hex x
      have hp : x ^ ((numOf (q iflav) : ℝ) / denOf (q iflav) i) = 1 / x := by
        have hdr' : (denOf (q iflav) i : ℝ) ≠ 0 := by exact_mod_cast hden
        rw [hm]
        push_cast
        rw [neg_div, div_self hdr', Real.rpow_neg_one, one_div]
      rw [hev, hp, sub_self, abs_zero]
      have : 0 ≤ 1 / x := by positivity
      positivity
    · rw [if_neg hm]
      refine ⟨rfl, rfl, hwide _ ?_⟩
      have hchk : check_approx_validity { a (3 * iflav + i) with
          num := numOf (q iflav), den := denOf (q iflav) i } (eigMin (q iflav)) (eigMax (q iflav))
          ((numOf (q iflav) : ℝ) / denOf (q iflav) i) (errOf pfr mdr i) := by
        refine ⟨hval.1, ?_, hval.2.2.1, hval.2.2.2.1, hval.2.2.2.2⟩
        simp only [sub_self, abs_zero]
        positivity
      have happ : Approximates { a (3 * iflav + i) with
          num := numOf (q iflav), den := denOf (q iflav) i }
          ((numOf (q iflav) : ℝ) / denOf (q iflav) i) (a (3 * iflav + i)).maxerr
          (a (3 * iflav + i)).minimum (a (3 * iflav + i)).maximum := by
        rw [hexpo]
        exact hs.approx
      exact (C56_rescale { a (3 * iflav + i) with
          num := numOf (q iflav), den := denOf (q iflav) i } _ _ _ _ _ hlo hhi hs.min_pos hs.min_le
          hchk happ).2.2.2.2.2
  · rw [hn hval]
    obtain ⟨g1, g2, g3⟩ := hgen (eigMin (q iflav) / enl_gen) (eigMax (q iflav) * enl_gen)
      (errOf pfr mdr i) (numOf (q iflav)) (denOf (q iflav) i) rfl rfl rfl rfl rfl
    refine ⟨g1, g2, fun x h1 h2 => ?_⟩
    have hg : 1 ≤ enl_gen := Real.one_le_rpow (by norm_num) (by norm_num)
    have hx0 : 0 < x := by linarith
    refine (g3 x ?_ ?_).trans (mul_le_mul_of_nonneg_right (by linarith)
      (Real.rpow_nonneg hx0.le _))
    · rw [div_le_iff₀ (by linarith)]
      nlinarith
    · nlinarith

/-- **C56** (a defect of the code, kept in the model): the largest eigenvalue is computed only for
quarks whose degeneracy differs from `npf` times the root, whatever the discretisation; a staggered
quark with `deg = 4·npf` gets the range `[m², 1.1·m²]` and its approximations never see the
spectrum. -/
theorem C56_unrooted_range (gen : ℝ → ℝ → ℝ → Int → Int → RatApprox) (nranks : Nat) (pfr mdr : ℝ)
    (q : Nat → FlavSpec) (nflavs : Nat) (a : Nat → RatApprox) (rank iflav i : Nat)
    (hf : iflav < nflavs) (hi : i < 3)
    (hdeg : (q iflav).deg = (q iflav).npf * root_needed (q iflav).discretiz)
    (hnew : (a (3 * iflav + i)).degree = 0) :
    eigMax (q iflav) = (q iflav).mass ^ 2 * (11 / 10) ∧
      set_expansions gen nranks pfr mdr q nflavs a rank (3 * iflav + i) =
        gen ((q iflav).mass ^ 2 / enl_gen) ((q iflav).mass ^ 2 * (11 / 10) * enl_gen)
          (errOf pfr mdr i) (numOf (q iflav)) (denOf (q iflav) i) := by
  have hmax : eigMax (q iflav) = (q iflav).mass ^ 2 * (11 / 10) := by
    unfold eigMax eigMin
    rw [if_pos ⟨by decide, not_not.2 hdeg⟩]
  refine ⟨hmax, ?_⟩
  have := (C56_set_expansions gen nranks pfr mdr q nflavs a rank iflav i hf hi).2
    (fun hv => hv.1 hnew)
  rw [this, hmax]
  rfl

/-! ### Hypotheses met -/

/-- The exact `1/x`, as stored. -/
noncomputable def exInv (lo hi : ℝ) : RatApprox := ⟨lo, hi, 1, 0, -1, 1, 1, fun _ => 0, fun _ => 1⟩

theorem exInv_eval (lo hi x : ℝ) : (exInv lo hi).eval x = 1 / x := by
  simp [RatApprox.eval, exInv]

example : Sound (exInv 1 4) := by
  refine ⟨by norm_num [exInv], by norm_num [exInv], fun x h1 h2 => ?_, fun _ x => exInv_eval 1 4 x⟩
  have hx : 0 < x := by
    have : (1 : ℝ) ≤ x := h1
    linarith
  rw [exInv_eval]
  have : (((exInv 1 4).num : ℝ) / (exInv 1 4).den) = -1 := by norm_num [exInv]
  rw [this, Real.rpow_neg_one, one_div, sub_self, abs_zero]
  have : (0 : ℝ) ≤ (exInv 1 4).maxerr := by norm_num [exInv]
  positivity

/-- The hypotheses of `C56_reuse` and `C56_rescale`: an approximation generated for `[1,4]`, asked for
`[2,9]`, is still usable. -/
example : check_approx_validity (exInv (1 / enl_gen) (4 * enl_gen)) 2 9 (-1) 1 := by
  have h2 : (1 : ℝ) < Real.sqrt 2 := by
    rw [show (1 : ℝ) = Real.sqrt 1 by simp]
    exact Real.sqrt_lt_sqrt (by norm_num) (by norm_num)
  have h3 : (9 : ℝ) / 8 < Real.sqrt 2 := by
    rw [show (9 : ℝ) / 8 = Real.sqrt ((9 / 8) ^ 2) by rw [Real.sqrt_sq]; norm_num]
    exact Real.sqrt_lt_sqrt (by norm_num) (by norm_num)
  rw [C56_reuse _ 1 4 2 9 (-1) 1 (by norm_num) (by norm_num) (by norm_num) (by norm_num)
    (by simp [exInv]) (by norm_num [exInv]) rfl rfl rfl (by norm_num)]
  constructor <;> nlinarith

/-- The hypotheses of `C56_accurate`, for the action of a staggered quark with the quarter root of
four pseudofermion powers (`-4/(4·1) = -1`) and mass 1. -/
example : denOf ⟨4, 1, .ROOT_STAG, 1, 4⟩ 1 = -4 ∧ numOf ⟨4, 1, .ROOT_STAG, 1, 4⟩ = 4 ∧
    (∀ lo hi : ℝ, 0 < lo → Approximates (exInv lo hi) (((4 : Int) : ℝ) / ((-4 : Int) : ℝ)) 1 lo hi) ∧
    0 < eigMin ⟨4, 1, .ROOT_STAG, 1, 4⟩ ∧
    eigMin ⟨4, 1, .ROOT_STAG, 1, 4⟩ ≤ eigMax ⟨4, 1, .ROOT_STAG, 1, 4⟩ := by
  refine ⟨by decide, by decide, fun lo hi hlo x h1 h2 => ?_, by norm_num [eigMin], ?_⟩
  · have hx : 0 < x := by linarith
    rw [exInv_eval, show (((4 : Int) : ℝ) / ((-4 : Int) : ℝ)) = -1 by norm_num, Real.rpow_neg_one,
      one_div, sub_self, abs_zero]
    positivity
  · unfold eigMax eigMin
    split_ifs <;> norm_num

/-- The case of `C56_unrooted_range`: largest eigenvalue 4, but the range ends at `1.1`. -/
example : eigMax ⟨4, 1, .ROOT_STAG, 1, 4⟩ = 11 / 10 := by
  unfold eigMax eigMin
  rw [if_pos (by decide)]
  norm_num

end Nissa.Remez
