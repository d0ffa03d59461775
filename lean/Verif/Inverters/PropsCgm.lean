/- C29: the multi-shift conjugate gradient in exact arithmetic. -/
import Verif.Inverters.Cgm
set_option linter.all false

namespace Nissa.Cgm
open scoped RealInnerProductSpace

variable {E : Type*} [NormedAddCommGroup E] [InnerProductSpace ℝ E] {ι : Type*} [Fintype ι]

/-! ### Specification -/

/-- the function applies the operator plus the shift -/
def Shifted (A : E →ₗ[ℝ] E) (f : ℝ → E → E) : Prop := ∀ shift x, f shift x = A x + shift • x

/-- states reached by the loop -/
inductive Iterates (f : ℝ → E → E) (shifts residue : ι → ℝ) (sourceNorm2 : ℝ) (st0 : State E ι) : Nat → State E ι → Prop
  | zero : Iterates f shifts residue sourceNorm2 st0 0 st0
  | succ (k st st') : Iterates f shifts residue sourceNorm2 st0 k st → iterate f shifts residue sourceNorm2 st = some st' → Iterates f shifts residue sourceNorm2 st0 (k + 1) st'

/-! ### The iteration -/

theorem iterate_some {f : ℝ → E → E} {shifts residue : ι → ℝ} {n2 : ℝ} {st st' : State E ι} (h : iterate f shifts residue n2 st = some st') :
    ⟪st.p, f 0 st.p⟫ ≠ 0 ∧ st.rr ≠ 0 ∧ (∀ i, (st.sh i).run = true → (st.sh i).zps ≠ 0 ∧ den (-st.rr / ⟪st.p, f 0 st.p⟫) st.betaa st.alpha (shifts i) (st.sh i) ≠ 0) ∧
    st'.betaa = -st.rr / ⟪st.p, f 0 st.p⟫ ∧ st'.r = st.r + st'.betaa • f 0 st.p ∧ st'.rr = ⟪st'.r, st'.r⟫ ∧ st'.alpha = st'.rr / st.rr ∧ st'.p = st'.r + st'.alpha • st.p ∧
    ∀ i, st'.sh i = stepShift st n2 st'.betaa st'.r st'.rr st'.alpha (shifts i) (residue i) (st.sh i) := by
  unfold iterate at h
  simp only at h
  by_cases h1 : ⟪st.p, f 0 st.p⟫ = 0
  · rw [if_pos h1] at h; cases h
  · rw [if_neg h1] at h
    by_cases h2 : ∃ i, (st.sh i).run = true ∧ ((st.sh i).zps = 0 ∨ den (-st.rr / ⟪st.p, f 0 st.p⟫) st.betaa st.alpha (shifts i) (st.sh i) = 0)
    · rw [if_pos h2] at h; cases h
    · rw [if_neg h2] at h
      by_cases h3 : st.rr = 0
      · rw [if_pos h3] at h; cases h
      · rw [if_neg h3] at h
        have := Option.some.inj h
        subst this
        refine ⟨h1, h3, fun i hi => ?_, rfl, rfl, rfl, rfl, rfl, fun i => rfl⟩
        rw [not_exists] at h2
        have := h2 i
        rw [not_and, not_or] at this
        exact this hi

/-- what is true of one shift: running, its residue is the tracked multiple of the common one, and its direction is known up to the
common ones; stopped, its residue is below the target -/
structure ShiftOk (A : E →ₗ[ℝ] E) (source : E) (st : State E ι) (shift residue : ℝ) (s : Shift E) : Prop where
  res : s.run = true → source - (A s.sol + shift • s.sol) = s.zas • st.r
  dir : s.run = true → A s.ps + shift • s.ps = s.zas • A st.p + (s.zas * (shift - st.alpha / st.betaa * (1 - s.zas / s.zps))) • st.r
  zas : s.run = true → s.zas ≠ 0
  zps : s.run = true → s.zps ≠ 0
  stop : s.run = false → ‖source - (A s.sol + shift • s.sol)‖ ^ 2 = s.finalRes * ‖source‖ ^ 2 ∧ s.finalRes < residue

structure Ok (A : E →ₗ[ℝ] E) (source : E) (shifts residue : ι → ℝ) (st : State E ι) : Prop where
  rr : st.rr = ⟪st.r, st.r⟫
  betaa : st.betaa ≠ 0
  sh : ∀ i, ShiftOk A source st (shifts i) (residue i) (st.sh i)

theorem init_ok (A : E →ₗ[ℝ] E) (source : E) (shifts residue : ι → ℝ) : Ok A source shifts residue (init source) where
  rr := rfl
  betaa := one_ne_zero
  sh i := by
    refine ⟨fun _ => ?_, fun _ => ?_, fun _ => one_ne_zero, fun _ => one_ne_zero, fun h => ?_⟩
    · simp [init]
    · simp [init]
    · cases h

theorem step_ok (A : E →ₗ[ℝ] E) (f : ℝ → E → E) (hf : Shifted A f) (source : E) (hs : source ≠ 0) (shifts residue : ι → ℝ) (st st' : State E ι) (ok : Ok A source shifts residue st)
    (h : iterate f shifts residue ⟪source, source⟫ st = some st') : Ok A source shifts residue st' := by
  obtain ⟨hpap, hrr, hden, hbeta, hr, hrr', hal, hp, hsh⟩ := iterate_some h
  have hf0 : f 0 st.p = A st.p := by rw [hf]; simp
  rw [hf0] at hpap hr hden hbeta
  have hb' : st'.betaa ≠ 0 := by rw [hbeta]; exact div_ne_zero (neg_ne_zero.2 hrr) hpap
  have hb := ok.betaa
  rw [← hbeta] at hden
  have hn2 : (‖source‖ ^ 2 : ℝ) ≠ 0 := pow_ne_zero _ (norm_ne_zero_iff.2 hs)
  refine ⟨hrr', hb', fun i => ?_⟩
  have os := ok.sh i
  rw [hsh]
  by_cases hrun : (st.sh i).run = true
  · obtain ⟨hzp, hd⟩ := hden i hrun
    have hres := os.res hrun
    have hdir := os.dir hrun
    have hza := os.zas hrun
    generalize hσ : shifts i = σ at *
    generalize hgs : st.sh i = s at *
    -- the ratio
    set ratio := st.betaa / den st'.betaa st.betaa st.alpha σ s with hratio
    have hr0 : ratio ≠ 0 := div_ne_zero hb hd
    have hrat : 1 + st'.betaa * ratio * (σ - st.alpha / st.betaa * (1 - s.zas / s.zps)) = ratio := by
      have hD : ratio * den st'.betaa st.betaa st.alpha σ s = st.betaa := by rw [hratio]; exact div_mul_cancel₀ _ hd
      unfold den at hD
      generalize s.zas / s.zps = q at hD ⊢
      have e : st.betaa * (1 + st'.betaa * ratio * (σ - st.alpha / st.betaa * (1 - q)) - ratio) = 0 := by
        have e2 : st.betaa * (st.alpha / st.betaa) = st.alpha := mul_div_cancel₀ _ hb
        have e3 : st.betaa * (1 + st'.betaa * ratio * (σ - st.alpha / st.betaa * (1 - q)) - ratio) =
          st.betaa + st'.betaa * ratio * (st.betaa * σ - st.betaa * (st.alpha / st.betaa) * (1 - q)) - st.betaa * ratio := by ring
        rw [e3, e2]
        linear_combination -hD
      exact sub_eq_zero.1 ((mul_eq_zero.1 e).resolve_left hb)
    -- the new residue
    have hstep : stepShift st ⟪source, source⟫ st'.betaa st'.r st'.rr st'.alpha σ (residue i) s =
        ⟨s.sol - (st'.betaa * ratio) • s.ps, (s.zas * ratio) • st'.r + (st'.alpha * (s.zas * ratio) * (st'.betaa * ratio) / (s.zas * st'.betaa)) • s.ps, s.zas, s.zas * ratio,
          decide (¬ st'.rr * (s.zas * ratio) * (s.zas * ratio) / ⟪source, source⟫ < residue i), st'.rr * (s.zas * ratio) * (s.zas * ratio) / ⟪source, source⟫⟩ := by
      unfold stepShift
      rw [if_pos hrun]
    have hps : (st'.betaa * ratio) • (A s.ps + σ • s.ps) = (s.zas * ratio) • st'.r - s.zas • st.r := by
      rw [hdir, hr]
      have e : st'.betaa * ratio * (s.zas * (σ - st.alpha / st.betaa * (1 - s.zas / s.zps))) = s.zas * ratio - s.zas := by
        linear_combination s.zas * hrat
      rw [smul_add, smul_smul, smul_smul, e, smul_add, smul_smul, sub_smul]
      have e2 : st'.betaa * ratio * s.zas = s.zas * ratio * st'.betaa := by ring
      rw [e2]; abel
    have hnew : source - (A (s.sol - (st'.betaa * ratio) • s.ps) + σ • (s.sol - (st'.betaa * ratio) • s.ps)) = (s.zas * ratio) • st'.r := by
      have e : source - (A (s.sol - (st'.betaa * ratio) • s.ps) + σ • (s.sol - (st'.betaa * ratio) • s.ps)) =
          (source - (A s.sol + σ • s.sol)) + (st'.betaa * ratio) • (A s.ps + σ • s.ps) := by
        rw [map_sub, map_smul, smul_sub, smul_comm σ, smul_add]; abel
      rw [e, hres, hps]; abel
    rw [hstep]
    refine ⟨fun _ => hnew, fun _ => ?_, fun _ => mul_ne_zero hza hr0, fun _ => hza, fun hstop => ?_⟩
    · simp only
      have hps' : A s.ps + σ • s.ps = (1 / (st'.betaa * ratio)) • ((s.zas * ratio) • st'.r - s.zas • st.r) := by
        rw [← hps, smul_smul, one_div_mul_cancel (mul_ne_zero hb' hr0), one_smul]
      have hAp : A st.p = (1 / st'.betaa) • (st'.r - st.r) := by
        rw [hr, add_sub_cancel_left, smul_smul, one_div_mul_cancel hb', one_smul]
      have hlin : ∀ (a b : ℝ) (u v : E), A (a • u + b • v) + σ • (a • u + b • v) = a • (A u + σ • u) + b • (A v + σ • v) := by
        intro a b u v
        rw [map_add, map_smul, map_smul, smul_add, smul_add, smul_add, smul_comm σ, smul_comm σ]; abel
      rw [hlin, hps', hp, map_add, map_smul, hAp]
      simp only [smul_add, smul_sub, smul_smul]
      have e1 : st'.alpha * (s.zas * ratio) * (st'.betaa * ratio) / (s.zas * st'.betaa) * (1 / (st'.betaa * ratio) * (s.zas * ratio)) = s.zas * ratio * (st'.alpha / st'.betaa) * ratio := by
        field_simp
      have e2 : st'.alpha * (s.zas * ratio) * (st'.betaa * ratio) / (s.zas * st'.betaa) * (1 / (st'.betaa * ratio) * s.zas) = s.zas * ratio * (st'.alpha * (1 / st'.betaa)) := by
        field_simp
      have e3 : s.zas * ratio * (σ - st'.alpha / st'.betaa * (1 - s.zas * ratio / s.zas)) =
          s.zas * ratio * σ + s.zas * ratio * (st'.alpha / st'.betaa) * ratio - s.zas * ratio * (st'.alpha * (1 / st'.betaa)) := by
        field_simp
        ring
      rw [e1, e2, e3]
      simp only [sub_smul, add_smul, mul_assoc]
      abel
    · simp only at hstop ⊢
      rw [hnew]
      have hlt : st'.rr * (s.zas * ratio) * (s.zas * ratio) / ⟪source, source⟫ < residue i := by
        by_contra hc
        rw [decide_eq_false_iff_not] at hstop
        exact hstop hc
      refine ⟨?_, hlt⟩
      rw [real_inner_self_eq_norm_sq, div_mul_cancel₀ _ hn2, norm_smul, mul_pow, hrr', real_inner_self_eq_norm_sq, Real.norm_eq_abs, sq_abs]
      ring
  · have e : stepShift st ⟪source, source⟫ st'.betaa st'.r st'.rr st'.alpha (shifts i) (residue i) (st.sh i) = st.sh i := by unfold stepShift; rw [if_neg hrun]
    rw [e]
    exact ⟨fun h => absurd h hrun, fun h => absurd h hrun, fun h => absurd h hrun, fun h => absurd h hrun, os.stop⟩

theorem iterates_ok (A : E →ₗ[ℝ] E) (f : ℝ → E → E) (hf : Shifted A f) (source : E) (hs : source ≠ 0) (shifts residue : ι → ℝ) (k : Nat) (st : State E ι)
    (h : Iterates f shifts residue ⟪source, source⟫ (init source) k st) : Ok A source shifts residue st := by
  induction h with
  | zero => exact init_ok A source shifts residue
  | succ k st st' _ hst ih => exact step_ok A f hf source hs shifts residue st st' ih hst

theorem nrun_zero {st : State E ι} (h : ¬ nrun st > 0) (i : ι) : (st.sh i).run = false := by
  by_contra hc
  apply h
  unfold nrun
  exact Finset.card_pos.2 ⟨i, Finset.mem_filter.2 ⟨Finset.mem_univ _, by simpa using hc⟩⟩

theorem loop_iterates (async : Bool) (f : ℝ → E → E) (shifts residue : ι → ℝ) (n2 : ℝ) (niter : Nat) (st0 : State E ι) (iter : Nat) (st : State E ι) (h : Iterates f shifts residue n2 st0 iter st) (st' : State E ι) (n : Nat)
    (hl : loop async f shifts residue n2 niter iter st = .ok (st', n)) : Iterates f shifts residue n2 st0 n st' ∧ iter < n ∧ ((∀ i, (st'.sh i).run = false) ∨ niter ≤ n) ∧ (n ≤ niter ∨ n = iter + 1) := by
  induction hm : niter - iter generalizing iter st with
  | zero =>
    rw [loop] at hl
    cases hi : iterate f shifts residue n2 st with
    | none => rw [hi] at hl; cases hl
    | some st1 =>
      rw [hi] at hl
      simp only at hl
      by_cases ha : async = true
      · rw [if_pos ha] at hl; cases hl
      rw [if_neg ha] at hl
      have hn : ¬(nrun st1 > 0 ∧ iter + 1 < niter) := by rintro ⟨-, h⟩; omega
      rw [if_neg hn] at hl
      have := Except.ok.inj hl
      obtain ⟨rfl, rfl⟩ := Prod.mk.inj this
      exact ⟨.succ _ _ _ h hi, by omega, Or.inr (by omega), Or.inr rfl⟩
  | succ m ih =>
    rw [loop] at hl
    cases hi : iterate f shifts residue n2 st with
    | none => rw [hi] at hl; cases hl
    | some st1 =>
      rw [hi] at hl
      simp only at hl
      by_cases ha : async = true
      · rw [if_pos ha] at hl; cases hl
      rw [if_neg ha] at hl
      by_cases hn : nrun st1 > 0 ∧ iter + 1 < niter
      · rw [if_pos hn] at hl
        obtain ⟨a, b, c, d⟩ := ih (iter + 1) st1 (.succ _ _ _ h hi) hl (by omega)
        exact ⟨a, by omega, c, Or.inl (by omega)⟩
      · rw [if_neg hn] at hl
        have := Except.ok.inj hl
        obtain ⟨rfl, rfl⟩ := Prod.mk.inj this
        refine ⟨.succ _ _ _ h hi, by omega, ?_, Or.inr rfl⟩
        by_cases hc : nrun st1 > 0
        · right
          by_contra h2
          exact hn ⟨hc, by omega⟩
        · exact Or.inl (nrun_zero hc)

/-- C29: at every iteration the true residue of each shifted system still being solved is the tracked multiple of the common residue -/
theorem C29_tracked_residue (A : E →ₗ[ℝ] E) (f : ℝ → E → E) (hf : Shifted A f) (source : E) (hs : source ≠ 0) (shifts residue : ι → ℝ) (k : Nat) (st : State E ι)
    (h : Iterates f shifts residue ⟪source, source⟫ (init source) k st) (i : ι) (hrun : (st.sh i).run = true) :
    source - (A (st.sh i).sol + shifts i • (st.sh i).sol) = (st.sh i).zas • st.r ∧ ‖source - (A (st.sh i).sol + shifts i • (st.sh i).sol)‖ ^ 2 = st.rr * (st.sh i).zas * (st.sh i).zas := by
  have ok := iterates_ok A f hf source hs shifts residue k st h
  have := (ok.sh i).res hrun
  refine ⟨this, ?_⟩
  rw [this, ok.rr, real_inner_self_eq_norm_sq, norm_smul, mul_pow, Real.norm_eq_abs, sq_abs]
  ring

/-- C29: if the solver returns, each shifted system is solved with its own required relative residue. At least one iteration must be
allowed. Only linearity of the operator is needed. -/
theorem C29_returns_converged (async : Bool) (A : E →ₗ[ℝ] E) (f : ℝ → E → E) (hf : Shifted A f) (source : E) (shifts residue : ι → ℝ) (niter : Nat) (hn : 0 < niter) (sol : ι → E) (n : Nat)
    (h : cgmInvert async shifts f niter residue source = .ok (sol, n)) : (∀ i, ‖source - (A (sol i) + shifts i • sol i)‖ ^ 2 < residue i * ‖source‖ ^ 2) ∧ 0 < n ∧ n < niter := by
  unfold cgmInvert at h
  simp only at h
  by_cases hs : (⟪source, source⟫ : ℝ) = 0
  · rw [if_pos hs] at h; cases h
  · rw [if_neg hs] at h
    have hs' : source ≠ 0 := fun hz => hs (by rw [hz, inner_zero_left])
    cases hl : loop async f shifts residue ⟪source, source⟫ niter 0 (init source) with
    | error c => rw [hl] at h; cases h
    | ok v =>
      obtain ⟨st, m⟩ := v
      rw [hl] at h
      simp only at h
      by_cases hm : m = niter
      · rw [if_pos hm] at h; cases h
      · rw [if_neg hm] at h
        obtain ⟨h1, h2⟩ := Prod.mk.inj (Except.ok.inj h)
        subst h1; subst h2
        obtain ⟨a, b, c, d⟩ := loop_iterates async f shifts residue _ niter _ 0 _ .zero _ _ hl
        refine ⟨fun i => ?_, b, by omega⟩
        have ok := iterates_ok A f hf source hs' shifts residue m st a
        rcases c with c | c
        · obtain ⟨e1, e2⟩ := (ok.sh i).stop (c i)
          rw [e1]
          exact mul_lt_mul_of_pos_right e2 (pow_pos (norm_pos_iff.2 hs') 2)
        · omega

/-! ### Termination -/

/-- the common part of the state goes as the conjugate gradient from a null guess -/
theorem common_is_cg (A : E →ₗ[ℝ] E) (f : ℝ → E → E) (hf : Shifted A f) (source : E) (shifts residue : ι → ℝ) (n2 : ℝ) (k : Nat) (st : State E ι)
    (h : Iterates f shifts residue n2 (init source) k st) : ∃ c : Cg.State E, Cg.Iterates A (Cg.init A none source) k c ∧ c.p = st.p ∧ c.r = st.r ∧ c.delta = st.rr := by
  induction h with
  | zero => exact ⟨_, .zero, by simp [Cg.init, init], by simp [Cg.init, init], by simp [Cg.init, init]⟩
  | succ k st st' _ hst ih =>
    obtain ⟨c, hc, c1, c2, c3⟩ := ih
    obtain ⟨hpap, hrr, -, hbeta, hr, hrr', hal, hp, -⟩ := iterate_some hst
    have hf0 : f 0 st.p = A st.p := by rw [hf]; simp
    rw [hf0] at hpap hr hbeta
    have hcomm : ⟪A c.p, c.p⟫ = ⟪st.p, A st.p⟫ := by rw [c1, real_inner_comm]
    have hit : ∃ c', Cg.iterate A c = some c' := by
      unfold Cg.iterate
      simp only
      rw [hcomm, if_neg hpap, c3, if_neg hrr]
      exact ⟨_, rfl⟩
    obtain ⟨c', hc'⟩ := hit
    obtain ⟨-, -, -, d1, d2, d3⟩ := Cg.iterate_some hc'
    have e1 : c'.r = st'.r := by
      rw [d1, hcomm, c1, c2, c3, hr, hbeta, neg_div, neg_smul]; abel
    have e2 : c'.delta = st'.rr := by rw [d2, e1, hrr']
    refine ⟨c', .succ _ _ _ hc hc', ?_, e1, e2⟩
    rw [d3, e1, e2, c1, c3, hp, hal]

/-- for non negative shifts the tracked factors are positive and decrease -/
structure Sign (st : State E ι) : Prop where
  alpha : 0 ≤ st.alpha
  betaa : st.betaa < 0 ∨ (st.alpha = 0 ∧ 0 < st.betaa)
  z : ∀ i, (st.sh i).run = true → 0 < (st.sh i).zas ∧ (st.sh i).zas ≤ (st.sh i).zps

theorem den_pos (betaa' betap alpha shift : ℝ) (s : Shift E) (hb' : betaa' < 0) (ha : 0 ≤ alpha) (hb : betap < 0 ∨ (alpha = 0 ∧ 0 < betap)) (hs : 0 ≤ shift) (hz : 0 < s.zas) (hzz : s.zas ≤ s.zps) :
    den betaa' betap alpha shift s ≠ 0 ∧ 0 < betap / den betaa' betap alpha shift s ∧ betap / den betaa' betap alpha shift s ≤ 1 := by
  have hq : 0 ≤ 1 - s.zas / s.zps := by
    rw [sub_nonneg, div_le_one (by linarith)]; exact hzz
  have h1 : 1 ≤ 1 - shift * betaa' := by nlinarith
  have hb0 : betap ≠ 0 := by rcases hb with h | h; exact h.ne; exact h.2.ne'
  have hd : 1 ≤ den betaa' betap alpha shift s / betap := by
    unfold den
    rw [add_div, mul_div_cancel_left₀ _ hb0]
    have : 0 ≤ betaa' * alpha * (1 - s.zas / s.zps) / betap := by
      rcases hb with h | h
      · apply div_nonneg_of_nonpos _ h.le
        exact mul_nonpos_of_nonpos_of_nonneg (mul_nonpos_of_nonpos_of_nonneg hb'.le ha) hq
      · rw [h.1]; simp
    linarith
  have hd0 : den betaa' betap alpha shift s ≠ 0 := by
    intro hz; rw [hz, zero_div] at hd; linarith
  have hinv : betap / den betaa' betap alpha shift s = 1 / (den betaa' betap alpha shift s / betap) := by rw [one_div_div]
  refine ⟨hd0, ?_, ?_⟩
  · rw [hinv]; exact one_div_pos.2 (by linarith)
  · rw [hinv]; rw [div_le_one (by linarith)]; exact hd

theorem iterates_sign (A : E →ₗ[ℝ] E) (hA : Cg.SPD A) (f : ℝ → E → E) (hf : Shifted A f) (source : E) (shifts residue : ι → ℝ) (hsh : ∀ i, 0 ≤ shifts i) (n2 : ℝ) (k : Nat) (st : State E ι)
    (h : Iterates f shifts residue n2 (init source) k st) : Sign st := by
  induction h with
  | zero => exact ⟨le_refl _, Or.inr ⟨rfl, one_pos⟩, fun i _ => ⟨one_pos, le_refl _⟩⟩
  | succ k st st' hk hst ih =>
    obtain ⟨hpap, hrr, -, hbeta, hr, hrr', hal, hp, hsh'⟩ := iterate_some hst
    have hf0 : f 0 st.p = A st.p := by rw [hf]; simp
    rw [hf0] at hpap hbeta
    obtain ⟨c, hc, -, c2, c3⟩ := common_is_cg A f hf source shifts residue n2 k st hk
    have hrrpos : 0 < st.rr := by
      refine lt_of_le_of_ne ?_ (Ne.symm hrr)
      rw [← c3, (Cg.true_residue A none source k c hc).2]
      exact real_inner_self_nonneg
    have hpappos : 0 < ⟪st.p, A st.p⟫ := by
      rw [real_inner_comm]
      refine hA.pos _ (fun hz => hpap ?_)
      rw [hz, inner_zero_left]
    have hb' : st'.betaa < 0 := by rw [hbeta]; exact div_neg_of_neg_of_pos (by linarith) hpappos
    refine ⟨?_, Or.inl hb', ?_⟩
    · rw [hal, hrr']; exact div_nonneg real_inner_self_nonneg hrrpos.le
    · intro i hrun
      rw [hsh'] at hrun ⊢
      unfold stepShift at hrun ⊢
      by_cases hr2 : (st.sh i).run = true
      · rw [if_pos hr2] at hrun ⊢
        simp only at hrun ⊢
        obtain ⟨z1, z2⟩ := ih.z i hr2
        obtain ⟨-, d2, d3⟩ := den_pos st'.betaa st.betaa st.alpha (shifts i) (st.sh i) hb' ih.alpha ih.betaa (hsh i) z1 z2
        exact ⟨mul_pos z1 d2, by nlinarith⟩
      · rw [if_neg hr2] at hrun; exact absurd hrun hr2

theorem iterate_isSome (A : E →ₗ[ℝ] E) (hA : Cg.SPD A) (f : ℝ → E → E) (hf : Shifted A f) (source : E) (shifts residue : ι → ℝ) (hsh : ∀ i, 0 ≤ shifts i) (n2 : ℝ) (k : Nat) (st : State E ι)
    (h : Iterates f shifts residue n2 (init source) k st) (hrr : st.rr ≠ 0) : ∃ st', iterate f shifts residue n2 st = some st' := by
  have hs := iterates_sign A hA f hf source shifts residue hsh n2 k st h
  obtain ⟨c, hc, c1, c2, c3⟩ := common_is_cg A f hf source shifts residue n2 k st h
  obtain ⟨c', hc'⟩ := Cg.iterate_isSome A hA none source k c hc (by rw [c3]; exact hrr)
  obtain ⟨hal, -⟩ := Cg.iterate_some hc'
  have hf0 : f 0 st.p = A st.p := by rw [hf]; simp
  have hpap : ⟪st.p, A st.p⟫ ≠ 0 := by rw [real_inner_comm, ← c1]; exact hal
  have hpappos : 0 < ⟪st.p, A st.p⟫ := by
    rw [real_inner_comm]
    refine hA.pos _ (fun hz => hpap ?_)
    rw [hz, inner_zero_left]
  have hrrpos : 0 < st.rr := by
    refine lt_of_le_of_ne ?_ (Ne.symm hrr)
    rw [← c3, (Cg.true_residue A none source k c hc).2]
    exact real_inner_self_nonneg
  have hb' : -st.rr / ⟪st.p, A st.p⟫ < 0 := div_neg_of_neg_of_pos (by linarith) hpappos
  unfold iterate
  simp only
  rw [hf0, if_neg hpap, if_neg, if_neg hrr]
  · exact ⟨_, rfl⟩
  · rintro ⟨i, h1, h2⟩
    obtain ⟨z1, z2⟩ := hs.z i h1
    rcases h2 with h2 | h2
    · linarith
    · exact (den_pos _ st.betaa st.alpha (shifts i) (st.sh i) hb' hs.alpha hs.betaa (hsh i) z1 z2).1 h2

/-- a shift still running has not reached its target -/
theorem running (f : ℝ → E → E) (shifts residue : ι → ℝ) (n2 : ℝ) (st st' : State E ι) (h : iterate f shifts residue n2 st = some st') (i : ι) (hrun : (st'.sh i).run = true) :
    residue i ≤ st'.rr * (st'.sh i).zas * (st'.sh i).zas / n2 := by
  obtain ⟨-, -, -, -, -, -, -, -, hsh'⟩ := iterate_some h
  rw [hsh'] at hrun ⊢
  unfold stepShift at hrun ⊢
  by_cases hr2 : (st.sh i).run = true
  · rw [if_pos hr2] at hrun ⊢
    simp only at hrun ⊢
    rw [decide_eq_true_eq, not_lt] at hrun
    exact hrun
  · rw [if_neg hr2] at hrun; exact absurd hrun hr2

theorem loop_terminates [FiniteDimensional ℝ E] (A : E →ₗ[ℝ] E) (hA : Cg.SPD A) (f : ℝ → E → E) (hf : Shifted A f) (source : E) (shifts residue : ι → ℝ) (hsh : ∀ i, 0 ≤ shifts i) (hres : ∀ i, 0 < residue i) (n2 : ℝ)
    (niter : Nat) (hn : Module.finrank ℝ E < niter) (iter : Nat) (st : State E ι) (h : Iterates f shifts residue n2 (init source) iter st) (hd : st.rr ≠ 0) :
    ∃ st' n, loop false f shifts residue n2 niter iter st = .ok (st', n) ∧ n ≤ Module.finrank ℝ E := by
  obtain ⟨c, hc, -, -, c3⟩ := common_is_cg A f hf source shifts residue n2 iter st h
  have hk := Cg.iterates_le_dim A hA none source iter c hc (by rw [c3]; exact hd)
  induction hm : niter - iter generalizing iter st c with
  | zero => omega
  | succ m ih =>
    obtain ⟨st', hst⟩ := iterate_isSome A hA f hf source shifts residue hsh n2 iter st h hd
    rw [loop, hst]
    simp only [Bool.false_eq_true, if_false]
    by_cases hcn : nrun st' > 0 ∧ iter + 1 < niter
    · rw [if_pos hcn]
      have hr' : st'.rr ≠ 0 := by
        intro hz
        obtain ⟨i, hi⟩ := Finset.card_pos.1 hcn.1
        have := running f shifts residue n2 st st' hst i (Finset.mem_filter.1 hi).2
        rw [hz] at this
        simp at this
        linarith [hres i]
      obtain ⟨c', hc', -, -, c3'⟩ := common_is_cg A f hf source shifts residue n2 (iter + 1) st' (.succ _ _ _ h hst)
      exact ih (iter + 1) st' (.succ _ _ _ h hst) hr' c' hc' c3' (Cg.iterates_le_dim A hA none source _ c' hc' (by rw [c3']; exact hr')) (by omega)
    · rw [if_neg hcn]
      exact ⟨st', iter + 1, rfl, hk⟩

/-- C29: in exact arithmetic the solver returns the solution of all the systems, within a number of iterations equal to the dimension, if
the operator is symmetric and positive, the shifts are not negative, the targets positive, and more iterations than the dimension are
allowed -/
theorem C29_terminates [FiniteDimensional ℝ E] (A : E →ₗ[ℝ] E) (hA : Cg.SPD A) (f : ℝ → E → E) (hf : Shifted A f) (source : E) (hs : source ≠ 0) (shifts residue : ι → ℝ) (hsh : ∀ i, 0 ≤ shifts i) (hres : ∀ i, 0 < residue i)
    (niter : Nat) (hn : Module.finrank ℝ E < niter) :
    ∃ sol n, cgmInvert false shifts f niter residue source = .ok (sol, n) ∧ n ≤ Module.finrank ℝ E ∧ ∀ i, ‖source - (A (sol i) + shifts i • sol i)‖ ^ 2 < residue i * ‖source‖ ^ 2 := by
  have hss : (⟪source, source⟫ : ℝ) ≠ 0 := fun h => hs (inner_self_eq_zero.1 h)
  obtain ⟨st, n, h1, h2⟩ := loop_terminates A hA f hf source shifts residue hsh hres ⟪source, source⟫ niter hn 0 (init source) .zero hss
  have h3 : cgmInvert false shifts f niter residue source = .ok (fun i => (st.sh i).sol, n) := by
    unfold cgmInvert
    simp only
    rw [if_neg hss, h1]
    simp only
    rw [if_neg (by omega)]
  exact ⟨_, n, h3, h2, (C29_returns_converged false A f hf source shifts residue niter (by omega) _ _ h3).1⟩

/-- instance: two shifts of the operator of diagonal (1,2) -/
example : ∃ sol n, cgmInvert false (ι := Fin 2) ![0, 1] (fun s x => Cg.diag12Lin x + s • x) 3 ![1 / 10, 1 / 1000] (!₂[1, 1] : Cg.Plane) = .ok (sol, n) ∧ n ≤ 2 := by
  have h11 : (!₂[1, 1] : Cg.Plane) ≠ 0 := fun h => by have := congrArg (fun x : Cg.Plane => x 0) h; simp at this
  have hd : Module.finrank ℝ Cg.Plane = 2 := by simp
  have := C29_terminates (ι := Fin 2) Cg.diag12Lin Cg.diag12_spd (fun s x => Cg.diag12Lin x + s • x) (fun _ _ => rfl) !₂[1, 1] h11 ![0, 1] ![1 / 10, 1 / 1000]
    (by intro i; fin_cases i <;> simp) (by intro i; fin_cases i <;> simp) 3 (by rw [hd]; omega)
  rw [hd] at this
  obtain ⟨sol, n, a, b, -⟩ := this
  exact ⟨sol, n, a, b⟩

/-! ### Where the code does not do what is expected -/

/-- C29: with asynchronous communications (the default) the solver never returns a solution, whatever the operator and the source -/
theorem C29_violated_async (f : ℝ → E → E) (shifts residue : ι → ℝ) (niter : Nat) (source : E) : ∀ v, cgmInvert true shifts f niter residue source ≠ .ok v := by
  intro v h
  unfold cgmInvert at h
  simp only at h
  split at h
  · cases h
  · rw [loop] at h
    cases hi : iterate f shifts residue ⟪source, source⟫ (init source) <;> rw [hi] at h <;> cases h

end Nissa.Cgm
