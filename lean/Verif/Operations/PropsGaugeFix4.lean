import Verif.Operations.PropsGaugeFix3

/-! # C60: the transformation found is in SU(3); search of alpha; what goes wrong -/

set_option linter.all false

namespace Nissa.GFix
open Nissa.Lx Nissa.Sten Nissa.Gauge Nissa.Su3f Nissa.Paths Nissa.GForce Matrix

noncomputable section

/-! ### the transformation stays in SU(3) -/

/-- the exponential used gives SU(3) matrices, and the Fourier transform is right if it is used -/
def ExpGood (E : Env) (P : Pars) : Prop :=
  (∀ A : M3, Aᴴ = -A → A.trace = 0 → IsSU3 (E.expo A)) ∧ (P.useFftAcc = 0 ∨ FftOk E)

/-- what is kept along the loops -/
def Inv (E : Env) (s : St) : Prop := (∀ x ∈ box E.g.L, IsSU3 (glob E.g s.fixer x)) ∧ InAlg E.g (glob E.g s.gcg.s)

theorem su3_one : IsSU3 (1 : M3) := ⟨by simp, by simp⟩

section
variable (E : Env) (ok : E.g.Ok) (P : Pars) (ext : Fld Quad)
include ok

theorem direction_inAlg (h : ExpGood E P) (s : St) (hs : InAlg E.g (glob E.g s.gcg.s)) :
    InAlg E.g (glob E.g (direction E P s).1) ∧ InAlg E.g (glob E.g (direction E P s).2.1.s) := by
  have hd : InAlg E.g (glob E.g (if P.useFftAcc > 0 ∨ (s.iter : Int) < -P.useFftAcc then fourierAccelerate E (derOf E P.gauge s.conf) else derOf E P.gauge s.conf)) := by
    rcases h.2 with h0 | hf
    · rw [if_neg (by rw [h0]; simp)]
      exact der_inAlg E ok _ _
    · split
      · exact facc_inAlg E ok hf (der_inAlg E ok _ _)
      · exact der_inAlg E ok _ _
  unfold direction
  simp only
  generalize (if P.useFftAcc > 0 ∨ (s.iter : Int) < -P.useFftAcc then fourierAccelerate E (derOf E P.gauge s.conf) else derOf E P.gauge s.conf) = der at hd ⊢
  have key : InAlg E.g (glob E.g (if s.useGcg then gcgImprove E der s.useGcg s.iter s.gcg else (s.gcg, s.useGcg)).1.s) := by
    split
    · unfold gcgImprove
      simp only
      split
      · exact hd
      · intro x hx
        obtain ⟨a1, a2⟩ := hd x hx
        obtain ⟨b1, b2⟩ := hs x hx
        obtain ⟨rk, i, hrk, hi, hr, hc, hF⟩ := lxSite ok hx
        rw [hF] at a1 a2 b1 b2 ⊢
        generalize (if s.iter > 1 then _ else _ : ℝ × Bool).1 = beta
        constructor
        · rw [Matrix.conjTranspose_add, Matrix.conjTranspose_smul, a1, b1, smul_neg, neg_add]; rfl
        · rw [Matrix.trace_add, Matrix.trace_smul, a2, b2, smul_zero, add_zero]
    · exact hs
  generalize (if s.useGcg then gcgImprove E der s.useGcg s.iter s.gcg else (s.gcg, s.useGcg)) = q at key ⊢
  refine ⟨?_, key⟩
  split
  · exact key
  · exact hd

theorem overrelax_su3 {start : Nat} {prob : ℝ} {iter eo : Nat} {s s' : Fld Quad × Fld M3} (h : overrelaxHalf E start prob iter eo s = some s')
    (hs : ∀ x ∈ box E.g.L, IsSU3 (glob E.g s.2 x)) : ∀ x ∈ box E.g.L, IsSU3 (glob E.g s'.2 x) := by
  unfold overrelaxHalf at h
  simp only [Option.map_eq_some_iff] at h
  obtain ⟨G, hG, rfl⟩ := h
  intro x hx
  have h1 := loopOpt_glob ok hG hx
  obtain ⟨rk, i, hrk, hi, hr, hc, hF⟩ := lxSite ok hx
  have h2 := hs x hx
  rw [hF] at h1 h2 ⊢
  rw [hF] at h1
  beta_reduce at h1
  show IsSU3 (if parOf E.g rk i = eo then G rk i * s.2 rk i else s.2 rk i)
  split
  · rename_i hp
    rw [if_pos hp] at h1
    unfold overrelaxSite at h1
    simp only [Option.map_eq_some_iff] at h1
    obtain ⟨V, hV, hVG⟩ := h1
    have hV1 := (C37_max_trace _ _ _ _ _ hV).1
    refine su3_mul ?_ h2
    rw [← hVG]
    split
    · exact su3_mul hV1 hV1
    · exact hV1
  · exact h2

theorem body_inv (hm : P.method = .exponentiate → ExpGood E P) {s s' : St} {o : Bool} (h : body E P ext s = some (s', o)) (hi : Inv E s) : Inv E s' := by
  unfold body at h
  rcases hm' : P.method with _ | _ | _ <;> rw [hm'] at h <;> simp only [Option.map_eq_some_iff] at h
  · obtain ⟨a, ⟨cf, h1, rfl⟩, h⟩ := h
    cases h
    unfold overrelax at h1
    rw [Option.bind_eq_some_iff] at h1
    obtain ⟨m, h2, h3⟩ := h1
    exact ⟨overrelax_su3 E ok h3 (overrelax_su3 E ok h2 hi.1), hi.2⟩
  · obtain ⟨a, h1, h⟩ := h
    cases h1; cases h
    have hd := direction_inAlg E ok P (hm hm') s hi.2
    refine ⟨?_, hd.2⟩
    intro x hx
    have hv := hd.1 x hx
    have hf := hi.1 x hx
    obtain ⟨rk, i, hrk, hi, hr, hc, hF⟩ := lxSite ok hx
    rw [hF] at hv hf ⊢
    refine su3_mul ((hm hm').1 _ ?_ ?_) hf
    · rw [Matrix.conjTranspose_smul, hv.1, smul_neg]; rfl
    · rw [Matrix.trace_smul, hv.2, smul_zero]
  · obtain ⟨a, h1, h⟩ := h
    cases h1

theorem inner_inv (hm : P.method = .exponentiate → ExpGood E P) {n : Nat} : ∀ {s s' : St}, inner E P ext n s = .done s' → Inv E s → Inv E s' := by
  induction n with
  | zero => intro s s' h; cases h
  | succ n ih =>
    intro s s' h hi
    unfold inner at h
    cases hb : body E P ext s with
    | none => rw [hb] at h; cases h
    | some q =>
      obtain ⟨s1, o⟩ := q
      rw [hb] at h
      have h1 := body_inv E ok P ext hm hb hi
      cases o
      · exact ih h h1
      · cases h; exact h1

/-- the unitarisation leaves the fixer in SU(3), and never fails there -/
theorem finish_inv {s : St} (hi : Inv E s) : (∃ q, finish E P ext s = some q) ∧ ∀ q, finish E P ext s = some q → Inv E q.1 := by
  constructor
  · have : ∃ F, loopOpt E.g (fun rk i => unitarize (s.fixer rk i)) = some F := by
      refine loopOpt_some fun rk hrk i hi' => ?_
      obtain ⟨c, ⟨h1, h2⟩, -⟩ := C02_bijective E.g ok rk i hrk hi'
      have := hi.1 c (mem_box.2 h1)
      unfold glob at this
      rw [h2] at this
      exact Option.isSome_iff_exists.2 ((unitarize_su3 this).imp fun V h => h.1)
    obtain ⟨F, hF⟩ := this
    unfold finish
    rw [hF]
    exact ⟨_, rfl⟩
  · rintro ⟨s', o⟩ h
    have k := (finish_spec E P ext h).2.2.2.2.2
    have hg : s'.gcg = s.gcg := by
      unfold finish at h
      simp only [Option.map_eq_some_iff] at h
      obtain ⟨fx, h1, h⟩ := h
      cases h
      rfl
    refine ⟨fun x hx => ?_, by rw [hg]; exact hi.2⟩
    have h1 := loopOpt_glob ok k hx
    have h2 := hi.1 x hx
    obtain ⟨rk, i, hrk, hi, hr, hc, hF⟩ := lxSite ok hx
    rw [hF] at h1 h2 ⊢
    rw [hF] at h1
    obtain ⟨V, hV, hV'⟩ := unitarize_su3 h2
    rw [hV] at h1
    rw [← Option.some.inj h1]
    exact hV'

theorem start_inv : Inv E (start E P ext) := by
  constructor
  · intro x hx
    exact su3_one
  · intro x hx
    have : glob E.g (start E P ext).gcg.s x = 0 := rfl
    rw [this]; simp

theorem outer_inv (hm : P.method = .exponentiate → ExpGood E P) {fuel n : Nat} : ∀ {s : St} {r : St × Bool}, outer E P ext fuel n s = .done r →
    Inv E s → Inv E r.1 := by
  induction n with
  | zero => intro s r h; cases h
  | succ n ih =>
    intro s r h hi
    unfold outer at h
    cases hin : inner E P ext fuel s with
    | crash => rw [hin] at h; cases h
    | running => rw [hin] at h; cases h
    | done s1 =>
      rw [hin] at h
      simp only at h
      have h1 := inner_inv E ok P ext hm hin hi
      cases hf : finish E P ext s1 with
      | none => rw [hf] at h; cases h
      | some q =>
        have h2 := (finish_inv E ok P ext h1).2 q hf
        obtain ⟨s2, o⟩ := q
        rw [hf] at h
        cases o
        · exact ih h h2
        · simp only at h; cases h; exact h2

/-- C60: with the overrelaxation, and with the exponentiation when the exponentials are in SU(3) (and the Fourier transform is right, if
used), the matrices of the transformation are exactly in SU(3); the real trace of the product of the links along any closed path is the same
before and after. -/
theorem C60_su3 (hm : P.method = .exponentiate → ExpGood E P) (fuel : Nat) (s : St) (h : fix E P ext fuel = .done s) :
    (∀ x ∈ box E.g.L, IsSU3 (glob E.g s.fixer x)) ∧
    ∀ (l : List Move) (x : Coords), x ∈ box E.g.L → pathEnd E.g x l = x →
      (pathProd E.g (transformed E.g (glob E.g s.fixer) (glob E.g ext)) x l).trace = (pathProd E.g (glob E.g ext) x l).trace := by
  have hi := (outer_inv E ok P ext hm (fix_done E P ext h) (start_inv E ok P ext)).1
  refine ⟨hi, fun l x hx hc => ?_⟩
  exact C32_closed_path E.g ok _ (fun y hy => mul_eq_one_comm.1 (hi y hy).1) _ l x hx hc

theorem inner_no_crash (hm : P.method = .exponentiate) {n : Nat} : ∀ {s : St}, inner E P ext n s ≠ .crash := by
  induction n with
  | zero => intro s h; cases h
  | succ n ih =>
    intro s h
    unfold inner at h
    cases hb : body E P ext s with
    | none =>
      unfold body at hb
      rw [hm] at hb
      simp at hb
    | some q =>
      obtain ⟨s1, o⟩ := q
      rw [hb] at h
      cases o
      · exact ih h
      · cases h

theorem outer_no_crash (hm : P.method = .exponentiate) (he : ExpGood E P) {fuel n : Nat} : ∀ {s : St}, Inv E s → outer E P ext fuel n s ≠ .crash := by
  induction n with
  | zero => intro s _ h; cases h
  | succ n ih =>
    intro s hi h
    unfold outer at h
    cases hin : inner E P ext fuel s with
    | crash => exact inner_no_crash E ok P ext hm hin
    | running => rw [hin] at h; cases h
    | done s1 =>
      rw [hin] at h
      simp only at h
      have h1 := inner_inv E ok P ext (fun _ => he) hin hi
      obtain ⟨q, hq⟩ := (finish_inv E ok P ext h1).1
      have h2 := (finish_inv E ok P ext h1).2 q hq
      obtain ⟨s2, o⟩ := q
      rw [hq] at h
      cases o
      · exact ih h2 h
      · cases h

/-- C60: with SU(3) exponentials the exponentiation never crashes: for any configuration, precision and maximum the routine returns. -/
theorem C60_returns (hm : P.method = .exponentiate) (he : ExpGood E P) (hl : ∀ rk, Reduce.Legal (E.sched rk)) (fuel : Nat)
    (h1 : P.nmaxIterations < fuel) (h0 : 0 < fuel) : ∃ s, fix E P ext fuel = .done s := by
  cases hf : fix E P ext fuel with
  | running => exact absurd hf ((C60_stops E P ext ok hl).1 fuel h1 h0)
  | done s => exact ⟨s, rfl⟩
  | crash =>
    exfalso
    unfold fix at hf
    cases ho : outer E P ext fuel fuel (start E P ext) with
    | crash => exact outer_no_crash E ok P ext hm he (start_inv E ok P ext) ho
    | running => rw [ho] at hf; cases hf
    | done r =>
      have := (outer_done E P ext ho).1
      obtain ⟨r, o⟩ := r
      simp only at this
      subst this
      rw [ho] at hf
      simp at hf

omit ok in
theorem unitarize_one : unitarize (1 : M3) = some 1 := by
  have hdet : (1 : M3).det ≠ 0 := by simp
  obtain ⟨V, hV⟩ := Option.isSome_iff_exists.1 ((unitarize_some 1).2 hdet)
  rw [hV]
  unfold unitarize at hV
  split at hV
  · rename_i hc
    obtain ⟨n, hn⟩ := hc.2.choose_spec
    rw [Option.some.inj hV] at hn
    cases n with
    | zero => cases hn
    | succ n =>
      have k := (C37_explicitly_inverting 1e-15 (by norm_num)).2 n 1 (by simp)
      rw [k.1] at hn
      have e : complex_pow (1 : ℂ) (-1.0 / 3) = 1 := by
        unfold complex_pow
        simp [Complex.ext_iff]
      rw [Matrix.det_one, e, one_smul] at hn
      rw [← Option.some.inj hn]
  · cases hV

theorem gqual_congr {gauge : Nat} {U V : Coords → Quad} (h : ∀ x ∈ box E.g.L, U x = V x) : gqual E.g gauge U = gqual E.g gauge V := by
  have hd : ∀ x ∈ box E.g.L, diverg E.g gauge U x = diverg E.g gauge V x := by
    intro x hx
    unfold diverg
    refine congrArg _ (Finset.sum_congr rfl fun mu _ => ?_)
    rw [h x hx, h _ (tshift_mem_box ok hx mu (-1))]
  have := Finset.sum_congr (rfl : box E.g.L = box E.g.L) (fun x hx => congrArg (fun D : M3 => 4 * (D * Dᴴ).trace.re) (hd x hx))
  unfold gqual
  rw [this]

/-- the first turn with a null step -/
theorem null_turn (h0 : E.expo 0 = 1) (hm : P.method = .exponentiate) (ha : P.alphaExp = 0) (hn : P.nmaxIterations = 1) (had : P.useAdaptativeSearch = false)
    {s : St} (hs : fix E P ext 2 = .done s) : ∀ x ∈ box E.g.L, glob E.g s.fixer x = 1 := by
  have hone := fix_done E P ext hs
  rw [outer] at hone
  have hb : ∃ s1, body E P ext (start E P ext) = some (s1, true) ∧ s1.fixer = addCurrent (expDerAlphaHalf E (direction E P (start E P ext)).1 0) (fun _ _ => 1) := by
    obtain ⟨⟨s1, o⟩, hq1⟩ : ∃ q, body E P ext (start E P ext) = some q := by
      unfold body; rw [hm]; exact ⟨_, rfl⟩
    have ho := (body_out E P ext hq1).2.2
    have hit := body_iter E P ext hq1
    have : o = true := ho.2 (.inr (.inl (by rw [hit, hn]; simp [start, check])))
    subst this
    refine ⟨s1, hq1, ?_⟩
    unfold body at hq1
    rw [hm] at hq1
    simp only [Option.map_some, Option.some.injEq, Prod.mk.injEq] at hq1
    rw [← hq1.1]
    have hu : (start E P ext).useAdapt = false := had
    show addCurrent (expDerAlphaHalf E (direction E P (start E P ext)).1
      (if (start E P ext).useAdapt then adaptAlpha E P.gauge (start E P ext).fixer (direction E P (start E P ext)).1 P.alphaExp ext (start E P ext).off (start E P ext).nskipped
        else (P.alphaExp, (start E P ext).nskipped)).1) (start E P ext).fixer = _
    rw [hu, ha]
    rfl
  obtain ⟨s1, hs1, hf1⟩ := hb
  have hs2 : inner E P ext 2 (start E P ext) = .done s1 := by rw [inner, hs1]
  rw [hs2] at hone
  simp only at hone
  cases hfin : finish E P ext s1 with
  | none => rw [hfin] at hone; cases hone
  | some q =>
    obtain ⟨s2, o⟩ := q
    rw [hfin] at hone
    have k := finish_spec E P ext hfin
    have hi1 := (inner_done E P ext hs2).1
    have : o = true := k.2.2.2.1.2 (.inr (by rw [k.1, hn]; omega))
    subst this
    simp only at hone
    cases hone
    intro x hx
    have h1 := loopOpt_glob ok k.2.2.2.2.2 hx
    obtain ⟨rk, i, hrk, hi, hr, hc, hF⟩ := lxSite ok hx
    rw [hF] at h1 ⊢
    rw [hF, hf1] at h1
    unfold addCurrent expDerAlphaHalf at h1
    simp only [mul_zero, zero_smul, h0, Matrix.mul_one] at h1
    rw [unitarize_one] at h1
    exact (Option.some.inj h1).symm

/-- C60, violated: the message "unable to fix to precision" is never given.  For any configuration which is not already in the gauge there
are parameters (one iteration with a null step) for which the routine returns normally, with the quality unchanged and worse than asked. -/
theorem C60_violated_report (he : ∀ A : M3, Aᴴ = -A → A.trace = 0 → IsSU3 (E.expo A)) (h0 : E.expo 0 = 1) (hl : ∀ rk, Reduce.Legal (E.sched rk))
    (gauge : Nat) (hq : gqual E.g gauge (glob E.g ext) ≠ 0) :
    ∃ (P : Pars) (s : St), P.gauge = gauge ∧ 0 < P.targetPrecision ∧ fix E P ext 2 = .done s ∧
      P.targetPrecision < gqual E.g gauge (glob E.g s.conf) := by
  have hpos : 0 < gqual E.g gauge (glob E.g ext) := lt_of_le_of_ne (gqual_nonneg ok _ _) (Ne.symm hq)
  generalize hQ : gqual E.g gauge (glob E.g ext) = Q at hpos
  have : ∃ P : Pars, P.gauge = gauge ∧ P.targetPrecision = Q / 2 ∧ P.method = .exponentiate ∧ P.alphaExp = 0 ∧ P.nmaxIterations = 1 ∧ P.useAdaptativeSearch = false
      ∧ P.useFftAcc = 0 := ⟨⟨gauge, Q / 2, 1, 1, .exponentiate, 0, 0, false, false, 0⟩, rfl, rfl, rfl, rfl, rfl, rfl, rfl⟩
  obtain ⟨P, e1, e2, e3, e4, e5, e6, e7⟩ := this
  have hg : ExpGood E P := ⟨he, .inl e7⟩
  obtain ⟨s, hs⟩ := C60_returns E ok P ext e3 hg hl 2 (by rw [e5]; norm_num) (by norm_num)
  refine ⟨P, s, e1, by rw [e2]; linarith, hs, ?_⟩
  have hfix := null_turn E ok P ext h0 e3 e4 e5 e6 hs
  have hconf : ∀ x ∈ box E.g.L, glob E.g s.conf x = glob E.g ext x := by
    intro x hx
    rw [(C60_gauge_equivalent E P ext ok 2 s hs).1 x hx]
    funext mu
    unfold transformed
    rw [hfix x hx, hfix _ (tshift_mem_box ok hx mu 1)]
    simp
  rw [gqual_congr E ok hconf, hQ, e2]
  linarith

/-- C60: the transformation is put back on the group after the first iteration whose number is not a multiple of `unitarizeEach` (and not
after each multiple): the inner loop makes a single turn. -/
theorem C60_violated_unitarize_each (s s' : St) (n : Nat) (h : inner E P ext n s = .done s') (hmod : ((s.iter + 1 : Nat) : Int).tmod P.unitarizeEach ≠ 0) :
    s'.iter = s.iter + 1 := by
  cases n with
  | zero => cases h
  | succ n =>
    unfold inner at h
    cases hb : body E P ext s with
    | none => rw [hb] at h; cases h
    | some q =>
      obtain ⟨s1, o⟩ := q
      rw [hb] at h
      have hi := body_iter E P ext hb
      have ho := (body_out E P ext hb).2.2.2 (.inr (.inr (by rw [hi]; exact hmod)))
      subst ho
      simp only at h
      cases h
      exact hi

end

/-! ### search of alpha -/

/-- what a successful search says: the last trial `a` has a lower functional, and the value returned is the minimum of the parabola
through the three points 0, `a` and `2a`, within 5% from `a` -/
theorem adapt_found (T : ℝ → ℝ × ℝ) (n : Nat) : ∀ a0 v, adaptLoop T n a0 = (true, v) → ∃ a A B : ℝ, a ≠ 0 ∧ 1e-14 < A ∧ A * a ^ 2 + B * a = (T a).1 ∧
    A * (2 * a) ^ 2 + B * (2 * a) = (T a).2 ∧ (∀ t, A * v ^ 2 + B * v ≤ A * t ^ 2 + B * t) ∧ |v / a - 1| < 0.05 ∧ (T a).1 < 0 := by
  induction n with
  | zero => intro a0 v h; simp [adaptLoop] at h
  | succ n ih =>
    intro a v h
    unfold adaptLoop at h
    simp only at h
    split at h
    · rename_i ha
      split at h
      · rename_i hc
        have hv : -((4 * (T a).1 - (T a).2 - 3 * 0) / (2 * a)) / (2 * (((T a).2 - 2 * (T a).1 + 0) / (2 * a ^ 2))) = v := (Prod.mk.inj h).2
        rw [hv] at hc
        set A := ((T a).2 - 2 * (T a).1 + 0) / (2 * a ^ 2) with hA
        set B := (4 * (T a).1 - (T a).2 - 3 * 0) / (2 * a) with hB
        have ha0 : a ≠ 0 := by
          rintro rfl
          rw [hA] at ha
          norm_num at ha
        have hApos : 0 < A := lt_trans (by norm_num) ha
        have e1 : A * a ^ 2 + B * a = (T a).1 := by
          rw [hA, hB]; field_simp; ring
        have e2 : A * (2 * a) ^ 2 + B * (2 * a) = (T a).2 := by
          rw [hA, hB]; field_simp; ring
        have e3 : B = -2 * A * v := by
          rw [← hv]; field_simp
        refine ⟨a, A, B, ha0, ha, e1, e2, ?_, hc.2, ?_⟩
        · intro t
          rw [e3]
          nlinarith [mul_nonneg hApos.le (sq_nonneg (t - v))]
        · rw [← e1, e3]
          have hr := abs_lt.1 hc.2
          have hva : v = (v / a) * a := by field_simp
          have hpos : 0 < a ^ 2 := by positivity
          have e : A * a ^ 2 + -2 * A * v * a = A * a ^ 2 * (1 - 2 * (v / a)) := by
            field_simp
            ring
          rw [e]
          refine mul_neg_of_pos_of_neg (by positivity) ?_
          norm_num at hr
          linarith
      · exact ih _ _ h
    · simp at h

/-- C60: if the functional along the direction is a parabola with a minimum, the search finds it, in at most two turns and from any starting
value. -/
theorem C60_adapt_parabola (T : ℝ → ℝ × ℝ) (A B : ℝ) (hA : 1e-14 < A) (hB : B ≠ 0) (hT : ∀ a, T a = (A * a ^ 2 + B * a, A * (2 * a) ^ 2 + B * (2 * a)))
    (n : Nat) (a0 : ℝ) (ha0 : a0 ≠ 0) : adaptLoop T (n + 2) a0 = (true, -B / (2 * A)) ∧ ∀ t, A * (-B / (2 * A)) ^ 2 + B * (-B / (2 * A)) ≤ A * t ^ 2 + B * t := by
  have hApos : 0 < A := lt_trans (by norm_num) hA
  have ea : ∀ a, a ≠ 0 → ((T a).2 - 2 * (T a).1 + 0) / (2 * a ^ 2) = A := by
    intro a ha; rw [hT]; field_simp; ring
  have eb : ∀ a, a ≠ 0 → (4 * (T a).1 - (T a).2 - 3 * 0) / (2 * a) = B := by
    intro a ha; rw [hT]; field_simp; ring
  have hv : -B / (2 * A) ≠ 0 := by
    rw [div_ne_zero_iff]; exact ⟨neg_ne_zero.2 hB, by positivity⟩
  constructor
  · rw [adaptLoop]
    simp only
    rw [ea a0 ha0, eb a0 ha0, if_pos hA]
    split
    · rfl
    · rw [adaptLoop]
      simp only
      rw [ea _ hv, eb _ hv, if_pos hA, if_pos]
      rw [div_self hv]
      refine ⟨?_, by norm_num⟩
      rw [abs_mul]
      have := abs_pos.2 hv
      norm_num
      linarith
  · intro t
    have e : A * t ^ 2 + B * t - (A * (-B / (2 * A)) ^ 2 + B * (-B / (2 * A))) = A * (t + B / (2 * A)) ^ 2 := by
      field_simp
      ring
    have := mul_nonneg hApos.le (sq_nonneg (t + B / (2 * A)))
    linarith

/-- C60: when the search of alpha succeeds, a step with a value within 5% from the one returned lowers the functional. -/
theorem C60_adapt_lowers (E : Env) (ok : E.g.Ok) (hl : ∀ rk, Reduce.Legal (E.sched rk)) (start : Nat) (ext conf : Fld Quad) (fixer v : Fld M3)
    (alphaDef alpha : ℝ) (nskipped : Nat) (h : adaptAlpha E start fixer v alphaDef ext (locFunctional start conf) (nskipped + 1) = (alpha, 0)) :
    ∃ a : ℝ, a ≠ 0 ∧ |alpha / a - 1| < 0.05 ∧
      gfunc E.g start (glob E.g (gauge_transform_conf E.g E.ji E.jm (addCurrent (expDerAlphaHalf E v a) fixer) ext)) < gfunc E.g start (glob E.g conf) := by
  unfold adaptAlpha at h
  simp only at h
  split at h
  · rename_i hr
    have h1 := (Prod.mk.inj h).1
    obtain ⟨a, A, B, h2, -, -, -, -, h3, h4⟩ := adapt_found (trialF E start fixer v ext (locFunctional start conf)) 15 alphaDef alpha (by rw [← h1, ← hr])
    refine ⟨a, h2, h3, ?_⟩
    unfold trialF at h4
    simp only at h4
    rw [functionalOffset_eq E ok hl] at h4
    linarith
  · have := (Prod.mk.inj h).2
    omega

/-- C60: the two trial points of the search are the functional, minus its starting value, after a step `alpha` and after a step `2 alpha`
(the exponential being such that doubling the exponent squares the matrix, as the exact one does). -/
theorem C60_trial_points (E : Env) (ok : E.g.Ok) (hl : ∀ rk, Reduce.Legal (E.sched rk)) (hexp : ∀ A : M3, E.expo ((2 : ℝ) • A) = E.expo A * E.expo A)
    (start : Nat) (ext conf : Fld Quad) (fixer v : Fld M3) (alpha : ℝ) :
    trialF E start fixer v ext (locFunctional start conf) alpha =
      (gfunc E.g start (glob E.g (gauge_transform_conf E.g E.ji E.jm (addCurrent (expDerAlphaHalf E v alpha) fixer) ext)) - gfunc E.g start (glob E.g conf),
       gfunc E.g start (glob E.g (gauge_transform_conf E.g E.ji E.jm (addCurrent (expDerAlphaHalf E v (2 * alpha)) fixer) ext)) - gfunc E.g start (glob E.g conf)) := by
  have h2 : addCurrent (expDerAlphaHalf E v alpha) (addCurrent (expDerAlphaHalf E v alpha) fixer) = addCurrent (expDerAlphaHalf E v (2 * alpha)) fixer := by
    funext rk i
    unfold addCurrent expDerAlphaHalf
    rw [← Matrix.mul_assoc, ← hexp, smul_smul]
    congr 3; ring
  unfold trialF
  simp only
  rw [functionalOffset_eq E ok hl, functionalOffset_eq E ok hl, h2]

/-- the exact exponential meets the hypothesis -/
example (A : M3) : NormedSpace.exp ((2 : ℝ) • A) = NormedSpace.exp A * NormedSpace.exp A := by
  rw [two_smul, Matrix.exp_add_of_commute _ _ (Commute.refl A)]

end

end Nissa.GFix
