import Verif.Operations.GaugeFix
import Verif.Hmc.PropsGaugeForce3

/-! # C60: fixing of the gauge: functional, quality, stopping of the loops and relation between input and output -/

set_option linter.all false

namespace Nissa.GFix
open Nissa.Lx Nissa.Sten Nissa.Gauge Nissa.Su3f Nissa.Paths Matrix

noncomputable section

/-! ### Specification, on the global lattice -/

/-- the directions of the gauge condition: all for `start=0` (Landau), the spatial ones for `start=1` (Coulomb) -/
def gdirs (start : Nat) : Finset Dir := Finset.univ.filter (fun mu => start ≤ mu.val)

/-- the functional: minus the sum of the real traces of the links -/
def gfunc (g : Geo) (start : Nat) (U : Coords → Quad) : ℝ := -∑ x ∈ box g.L, ∑ mu ∈ gdirs start, (U x mu).trace.re

/-- traceless antihermitian part -/
def alg (M : M3) : M3 := (1 / 2 : ℂ) • (M - Mᴴ) - (Matrix.trace ((1 / 2 : ℂ) • (M - Mᴴ)) / 3) • (1 : M3)

/-- the lattice divergence of the gauge field at a site: traceless antihermitian part of the sum of the links arriving minus those leaving -/
def diverg (g : Geo) (start : Nat) (U : Coords → Quad) (x : Coords) : M3 := alg (∑ mu ∈ gdirs start, (U (tshift g x mu (-1)) mu - U x mu))

/-- the measure of how far the configuration is from the gauge: average of the square of the divergence -/
def gqual (g : Geo) (start : Nat) (U : Coords → Quad) : ℝ :=
  (∑ x ∈ box g.L, 4 * (diverg g start U x * (diverg g start U x)ᴴ).trace.re) / (3 * g.glbVol)

/-! ### folds -/

theorem fold_dirs {M : Type} [AddCommMonoid M] (start : Nat) (h : Dir → M) :
    (dirsFrom start).foldl (fun d mu => d + h mu) 0 = ∑ mu ∈ gdirs start, h mu := by
  unfold dirsFrom gdirs dirs
  rw [Finset.sum_filter, Fin.sum_univ_four]
  by_cases h0 : start ≤ 0 <;> by_cases h1 : start ≤ 1 <;> by_cases h2 : start ≤ 2 <;> by_cases h3 : start ≤ 3 <;>
    simp [h0, h1, h2, h3] <;> try omega
  all_goals
    simp_all

theorem trace_re (u : M3) : su3_real_trace u = u.trace.re := by
  simp [su3_real_trace, Matrix.trace, Fin.sum_univ_three]

theorem locFunctional_eq (start : Nat) (conf : Fld Quad) (rk i : Nat) :
    locFunctional start conf rk i = -∑ mu ∈ gdirs start, (conf rk i mu).trace.re := by
  unfold locFunctional
  rw [show (fun F mu => F - su3_real_trace (conf rk i mu)) = fun F mu => F + -(conf rk i mu).trace.re from by
    funext F mu; rw [trace_re]; ring]
  rw [fold_dirs, Finset.sum_neg_distrib]

theorem functionalDer_eq (start : Nat) (here : Quad) (dw : Dir → Quad) : functionalDer start here dw = ∑ mu ∈ gdirs start, (here mu + (dw mu mu)ᴴ) := by
  unfold functionalDer
  rw [← fold_dirs]
  congr 1
  funext out mu; rw [add_assoc]

/-! ### functional and quality on any grid -/

theorem alg_eq (M o : M3) : su3_traceless_anti_hermitian_part M o = alg M := (C38_algebra_parts M o).1

theorem alg_anti (M : M3) : (alg M)ᴴ = -alg M := by rw [← alg_eq M 0]; exact (C38_algebra M 0).1
theorem alg_trace (M : M3) : (alg M).trace = 0 := by rw [← alg_eq M 0]; exact (C38_algebra M 0).2.1

theorem alg_neg (M : M3) : alg (-M) = -alg M := by
  unfold alg
  rw [Matrix.conjTranspose_neg, show -M - -Mᴴ = -(M - Mᴴ) by abel, smul_neg, Matrix.trace_neg, neg_div, neg_smul]
  abel

theorem alg_dag (M : M3) : alg Mᴴ = -alg M := by
  unfold alg
  rw [Matrix.conjTranspose_conjTranspose, show Mᴴ - M = -(M - Mᴴ) by abel, smul_neg, Matrix.trace_neg, neg_div, neg_smul]
  abel

theorem alg_add (M N : M3) : alg (M + N) = alg M + alg N := by
  unfold alg
  rw [Matrix.conjTranspose_add, show M + N - (Mᴴ + Nᴴ) = (M - Mᴴ) + (N - Nᴴ) by abel, smul_add, Matrix.trace_add, add_div, add_smul]
  abel

theorem alg_sum {I : Type} (s : Finset I) (f : I → M3) : alg (∑ i ∈ s, f i) = ∑ i ∈ s, alg (f i) := by
  classical
  induction s using Finset.induction_on with
  | empty =>
    simp [alg]
  | insert a s ha ih => rw [Finset.sum_insert ha, Finset.sum_insert ha, alg_add, ih]

section
variable (E : Env) (ok : E.g.Ok)
include ok

theorem dwOf_eq (conf : Fld Quad) {rk i : Nat} (hrk : rk < E.g.nranks) (hi : i < E.g.locVol) {x : Coords}
    (hx : glbCoordOfLoclx E.g (coordOfLx rk E.g.R) i = some x) (mu : Dir) : dwOf E conf rk i mu = glob E.g conf (tshift E.g x mu (-1)) :=
  mem_dw ok E.jq E.ji conf (isRank_coord ok hrk) hi hx mu

theorem here_eq {V : Type} (jv : V) (f : Fld V) {rk i : Nat} (hrk : rk < E.g.nranks) (hi : i < E.g.locVol) {x : Coords}
    (hx : glbCoordOfLoclx E.g (coordOfLx rk E.g.R) i = some x) : f rk i = glob E.g f x := by
  have h := mem_here ok jv f (isRank_coord ok hrk) hi hx
  rw [← h]
  unfold mem
  rw [if_pos hi, lx_coord ok hrk]

theorem reduceAll_eq (hl : ∀ rk, Reduce.Legal (E.sched rk)) (f : Fld ℝ) : reduceAll E f = ∑ x ∈ box E.g.L, glob E.g f x :=
  reduce_sites ok E.sched hl f (glob E.g f) fun rk hrk i hi x hx => here_eq E ok 0 f hrk hi hx

/-- C60: the functional returned is minus the sum over the whole lattice of the real traces of the links of the directions considered,
for any grid of ranks and order of the reduction. -/
theorem C60_functional (hl : ∀ rk, Reduce.Legal (E.sched rk)) (start : Nat) (conf : Fld Quad) :
    functional E start conf = gfunc E.g start (glob E.g conf) := by
  unfold functional gfunc
  rw [reduceAll_eq E ok hl, ← Finset.sum_neg_distrib]
  refine Finset.sum_congr rfl fun x hx => ?_
  show locFunctional start conf _ _ = _
  rw [locFunctional_eq]; rfl

theorem functionalOffset_eq (hl : ∀ rk, Reduce.Legal (E.sched rk)) (start : Nat) (conf ref : Fld Quad) :
    functionalOffset E start conf (locFunctional start ref) = gfunc E.g start (glob E.g conf) - gfunc E.g start (glob E.g ref) := by
  rw [← C60_functional E ok hl, ← C60_functional E ok hl]
  unfold functionalOffset functional
  rw [reduceAll_eq E ok hl, reduceAll_eq E ok hl, reduceAll_eq E ok hl, ← Finset.sum_sub_distrib]
  rfl

theorem omega_eq (start : Nat) (conf : Fld Quad) {x : Coords} (hx : x ∈ box E.g.L) :
    glob E.g (locOmega E start conf) x = 4 * (diverg E.g start (glob E.g conf) x * (diverg E.g start (glob E.g conf) x)ᴴ).trace.re := by
  obtain ⟨rk, i, hrk, hi, hr, hc, hF⟩ := lxSite ok hx
  rw [hF]
  unfold locOmega diverg
  simp only
  rw [alg_eq, ← norm2_trace]
  rw [show (fun (d : M3) (mu : Dir) => d - conf rk i mu + dwOf E conf rk i mu mu) =
      fun d mu => d + (glob E.g conf (tshift E.g x mu (-1)) mu - glob E.g conf x mu) from by
    funext d mu
    rw [dwOf_eq E ok conf hrk hi hc, here_eq E ok E.jq conf hrk hi hc]; abel]
  rw [fold_dirs]

/-- C60: the quality returned is the average over the whole lattice of the square of the divergence, for any grid of ranks. -/
theorem C60_quality (hl : ∀ rk, Reduce.Legal (E.sched rk)) (start : Nat) (conf : Fld Quad) :
    quality E start conf = gqual E.g start (glob E.g conf) := by
  unfold quality gqual
  rw [reduceAll_eq E ok hl, Finset.sum_congr rfl fun x hx => omega_eq E ok start conf hx, div_div, mul_comm (E.g.glbVol : ℝ)]

/-- the derivative used for the step is minus the divergence -/
theorem derOf_eq (start : Nat) (conf : Fld Quad) {x : Coords} (hx : x ∈ box E.g.L) :
    glob E.g (derOf E start conf) x = -diverg E.g start (glob E.g conf) x := by
  obtain ⟨rk, i, hrk, hi, hr, hc, hF⟩ := lxSite ok hx
  rw [hF]
  unfold derOf diverg
  rw [alg_eq, functionalDer_eq, alg_sum, alg_sum, ← Finset.sum_neg_distrib]
  refine Finset.sum_congr rfl fun mu _ => ?_
  rw [dwOf_eq E ok conf hrk hi hc, here_eq E ok E.jq conf hrk hi hc, alg_add, alg_dag, sub_eq_add_neg, alg_add, alg_neg, neg_add, neg_neg]
  abel

end

/-! ### the loops -/

section
variable (E : Env) (P : Pars) (ext : Fld Quad)

theorem body_iter {s s' : St} {o : Bool} (h : body E P ext s = some (s', o)) : s'.iter = s.iter + 1 := by
  unfold body at h
  rcases hm : P.method with _ | _ | _ <;> rw [hm] at h <;> simp only [Option.map_eq_some_iff] at h
  · obtain ⟨a, ⟨cf, -, rfl⟩, h⟩ := h
    cases h; rfl
  · obtain ⟨a, h1, h⟩ := h
    cases h1; cases h; rfl
  · obtain ⟨a, h1, h⟩ := h
    cases h1

theorem body_out {s s' : St} {o : Bool} (h : body E P ext s = some (s', o)) :
    s'.prec = quality E P.gauge s'.conf ∧ s'.off = locFunctional P.gauge s'.conf ∧
    (o = true ↔ s'.prec ≤ P.targetPrecision ∨ P.nmaxIterations ≤ s'.iter ∨ (s'.iter : Int).tmod P.unitarizeEach ≠ 0) := by
  unfold body at h
  rcases hm : P.method with _ | _ | _ <;> rw [hm] at h <;> simp only [Option.map_eq_some_iff] at h
  · obtain ⟨a, ⟨cf, -, rfl⟩, h⟩ := h
    cases h
    refine ⟨rfl, rfl, ?_⟩
    simp [Bool.or_eq_true, or_assoc]
  · obtain ⟨a, h1, h⟩ := h
    cases h1; cases h
    refine ⟨rfl, rfl, ?_⟩
    simp [Bool.or_eq_true, or_assoc]
  · obtain ⟨a, h1, h⟩ := h
    cases h1

/-- an inner loop: at least one turn, no more than the maximum -/
theorem inner_done {n : Nat} : ∀ {s s' : St}, inner E P ext n s = .done s' →
    s.iter + 1 ≤ s'.iter ∧ (s'.iter = s.iter + 1 ∨ (s'.iter : Int) ≤ P.nmaxIterations) ∧
    (s'.prec ≤ P.targetPrecision ∨ P.nmaxIterations ≤ s'.iter ∨ (s'.iter : Int).tmod P.unitarizeEach ≠ 0) := by
  induction n with
  | zero => intro s s' h; cases h
  | succ n ih =>
    intro s s' h
    unfold inner at h
    cases hb : body E P ext s with
    | none => rw [hb] at h; cases h
    | some q =>
      obtain ⟨s1, o⟩ := q
      rw [hb] at h
      have hi := body_iter E P ext hb
      have ho := (body_out E P ext hb).2.2
      cases o
      · simp only at h
        have k := ih h
        simp only [Bool.false_eq_true, false_iff, not_or, not_le] at ho
        refine ⟨by omega, .inr ?_, k.2.2⟩
        rcases k.2.1 with k1 | k1
        · rw [k1]; push_cast; omega
        · exact k1
      · simp only at h
        cases h
        exact ⟨by omega, .inl hi, ho.1 rfl⟩

theorem inner_ends {n : Nat} : ∀ {s : St}, P.nmaxIterations < (s.iter : Int) + 1 + n → inner E P ext (n + 1) s ≠ .running := by
  induction n with
  | zero =>
    intro s h h'
    unfold inner at h'
    cases hb : body E P ext s with
    | none => rw [hb] at h'; cases h'
    | some q =>
      obtain ⟨s1, o⟩ := q
      rw [hb] at h'
      have hi := body_iter E P ext hb
      have ho := (body_out E P ext hb).2.2
      cases o
      · simp only [Bool.false_eq_true, false_iff, not_or, not_le] at ho
        omega
      · cases h'
  | succ n ih =>
    intro s h h'
    rw [inner] at h'
    cases hb : body E P ext s with
    | none => rw [hb] at h'; cases h'
    | some q =>
      obtain ⟨s1, o⟩ := q
      rw [hb] at h'
      have hi := body_iter E P ext hb
      cases o
      · exact ih (by rw [hi]; push_cast at h ⊢; omega) h'
      · cases h'

theorem finish_spec {s s' : St} {o : Bool} (h : finish E P ext s = some (s', o)) :
    s'.iter = s.iter ∧ s'.prec = quality E P.gauge s'.conf ∧ s'.func = functional E P.gauge s'.conf ∧
    (o = true ↔ s'.prec ≤ P.targetPrecision ∨ P.nmaxIterations ≤ s'.iter) ∧
    s'.conf = gauge_transform_conf E.g E.ji E.jm s'.fixer ext ∧
    loopOpt E.g (fun rk i => unitarize (s.fixer rk i)) = some s'.fixer := by
  unfold finish at h
  simp only [Option.map_eq_some_iff] at h
  obtain ⟨fx, h1, h⟩ := h
  cases h
  refine ⟨rfl, rfl, rfl, ?_, rfl, h1⟩
  simp [Bool.or_eq_true]

/-- the last turn of the outer loop -/
theorem outer_done {fuel n : Nat} : ∀ {s : St} {r : St × Bool}, outer E P ext fuel n s = .done r →
    r.2 = true ∧ s.iter + 1 ≤ r.1.iter ∧ (r.1.iter = s.iter + 1 ∨ (r.1.iter : Int) ≤ P.nmaxIterations) ∧ ∃ s1, finish E P ext s1 = some r := by
  induction n with
  | zero => intro s r h; cases h
  | succ n ih =>
    intro s r h
    unfold outer at h
    cases hi : inner E P ext fuel s with
    | crash => rw [hi] at h; cases h
    | running => rw [hi] at h; cases h
    | done s1 =>
      rw [hi] at h
      simp only at h
      have hd := inner_done E P ext hi
      cases hf : finish E P ext s1 with
      | none => rw [hf] at h; cases h
      | some q =>
        obtain ⟨s2, o⟩ := q
        rw [hf] at h
        have k := finish_spec E P ext hf
        cases o
        · simp only at h
          have j := ih h
          have ko := k.2.2.2.1
          simp only [Bool.false_eq_true, false_iff, not_or, not_le] at ko
          refine ⟨j.1, by have := j.2.1; rw [k.1] at this; omega, .inr ?_, j.2.2.2⟩
          rcases j.2.2.1 with j1 | j1
          · rw [j1]; push_cast; omega
          · exact j1
        · simp only at h
          cases h
          exact ⟨rfl, by simp only; omega, by simp only; rw [k.1]; exact hd.2.1, s1, hf⟩

theorem outer_ends {fuel n : Nat} (hfuel : P.nmaxIterations < fuel) (hf0 : 0 < fuel) : ∀ {s : St}, P.nmaxIterations < (s.iter : Int) + 1 + n →
    outer E P ext fuel (n + 1) s ≠ .running := by
  obtain ⟨m, rfl⟩ : ∃ m, fuel = m + 1 := ⟨fuel - 1, by omega⟩
  have key : ∀ s, inner E P ext (m + 1) s ≠ .running := fun s => inner_ends E P ext (by push_cast at hfuel; omega)
  induction n with
  | zero =>
    intro s h h'
    rw [outer] at h'
    cases hi : inner E P ext (m + 1) s with
    | crash => rw [hi] at h'; cases h'
    | running => exact key s hi
    | done s1 =>
      rw [hi] at h'
      simp only at h'
      have hd := inner_done E P ext hi
      cases hf : finish E P ext s1 with
      | none => rw [hf] at h'; cases h'
      | some q =>
        obtain ⟨s2, o⟩ := q
        rw [hf] at h'
        have k := finish_spec E P ext hf
        have ko := k.2.2.2.1
        cases o
        · simp only [Bool.false_eq_true, false_iff, not_or, not_le] at ko
          omega
        · cases h'
  | succ n ih =>
    intro s h h'
    rw [outer] at h'
    cases hi : inner E P ext (m + 1) s with
    | crash => rw [hi] at h'; cases h'
    | running => exact key s hi
    | done s1 =>
      rw [hi] at h'
      simp only at h'
      have hd := inner_done E P ext hi
      cases hf : finish E P ext s1 with
      | none => rw [hf] at h'; cases h'
      | some q =>
        obtain ⟨s2, o⟩ := q
        rw [hf] at h'
        have k := finish_spec E P ext hf
        cases o
        · exact ih (by push_cast at h ⊢; omega) h'
        · cases h'

theorem fix_done {fuel : Nat} {s : St} (h : fix E P ext fuel = .done s) : outer E P ext fuel fuel (start E P ext) = .done (s, true) := by
  unfold fix at h
  cases ho : outer E P ext fuel fuel (start E P ext) with
  | crash => rw [ho] at h; cases h
  | running => rw [ho] at h; cases h
  | done r =>
    obtain ⟨r, o⟩ := r
    rw [ho] at h
    cases o
    · simp at h
    · simp at h; rw [h]

/-- C60: the routine always ends, after at least one iteration and at most the maximum asked for (one, if the maximum is less than one).
When it returns, the configuration has the quality asked for, or the maximum number of iterations was used; the quality and the
functional printed are those of the configuration given back. -/
theorem C60_stops (ok : E.g.Ok) (hl : ∀ rk, Reduce.Legal (E.sched rk)) :
    (∀ fuel : Nat, P.nmaxIterations < fuel → 0 < fuel → fix E P ext fuel ≠ .running) ∧
    ∀ (fuel : Nat) (s : St), fix E P ext fuel = .done s →
      1 ≤ s.iter ∧ (s.iter : Int) ≤ max 1 P.nmaxIterations ∧
      (gqual E.g P.gauge (glob E.g s.conf) ≤ P.targetPrecision ∨ P.nmaxIterations ≤ s.iter) ∧
      s.prec = gqual E.g P.gauge (glob E.g s.conf) ∧ s.func = gfunc E.g P.gauge (glob E.g s.conf) := by
  constructor
  · intro fuel h1 h0 h
    obtain ⟨m, rfl⟩ : ∃ m, fuel = m + 1 := ⟨fuel - 1, by omega⟩
    have := outer_ends E P ext (n := m) h1 h0 (s := start E P ext) (by
      have : (start E P ext).iter = 0 := rfl
      rw [this]; push_cast at h1 ⊢; omega)
    unfold fix at h
    cases ho : outer E P ext (m + 1) (m + 1) (start E P ext) with
    | crash => rw [ho] at h; cases h
    | running => exact this ho
    | done r =>
      rw [ho] at h
      simp only at h
      split at h <;> cases h
  · intro fuel s h
    obtain ⟨-, h1, h2, s1, h3⟩ := outer_done E P ext (fix_done E P ext h)
    have h0 : (start E P ext).iter = 0 := rfl
    rw [h0] at h1 h2
    obtain ⟨k1, k2, k3, k4, k5, k6⟩ := finish_spec E P ext h3
    refine ⟨by simpa using h1, ?_, ?_, ?_, ?_⟩
    · rcases h2 with h2 | h2
      · simp only at h2; rw [h2]; push_cast; omega
      · exact le_trans h2 (le_max_right _ _)
    · rw [← C60_quality E ok hl, ← k2]; exact k4.1 rfl
    · rw [k2, C60_quality E ok hl]
    · rw [k3, C60_functional E ok hl]

/-- what is said of a matrix after the unitarisation: unit determinant, and within 50 times the square of the tolerance from SU(3) -/
def NearSU3 (V : M3) : Prop := V.det = 1 ∧ ∃ W : M3, IsSU3 W ∧ Real.sqrt (su3_norm2 (V - W)) ≤ 50 * (1e-15) ^ 2

theorem unitarize_near {X V : M3} (h : unitarize X = some V) : NearSU3 V := by
  unfold unitarize at h
  split at h
  · rename_i hc
    cases h
    obtain ⟨n, hn⟩ := hc.2.choose_spec
    obtain ⟨h1, W, c, -, -, -, h2, h3⟩ := (C37_inverting_converges 1e-15 (by norm_num) (by norm_num) X hc.1).2 n _ hn
    exact ⟨h1, c • W, h2, h3⟩
  · cases h

/-- the unitarisation gives a result exactly for the invertible matrices -/
theorem unitarize_some (X : M3) : (unitarize X).isSome ↔ X.det ≠ 0 := by
  unfold unitarize
  constructor
  · intro h
    split at h
    · rename_i hc; exact hc.1
    · cases h
  · intro hX
    have h := (C37_inverting_converges 1e-15 (by norm_num) (by norm_num) X hX).1
    obtain ⟨n, hn⟩ : ∃ n : ℕ, 5 / 16 * (su3_norm2 X + su3_norm2 X⁻¹) ≤ 4 ^ n * (1e-15 : ℝ) ^ 2 := by
      obtain ⟨n, hn⟩ := pow_unbounded_of_one_lt (5 / 16 * (su3_norm2 X + su3_norm2 X⁻¹) / (1e-15 : ℝ) ^ 2) (by norm_num : (1 : ℝ) < 4)
      refine ⟨n, ?_⟩
      rw [div_lt_iff₀ (by norm_num)] at hn
      exact hn.le
    obtain ⟨V, hV⟩ := Option.isSome_iff_exists.1 (h n hn (n + 2) le_rfl)
    rw [dif_pos ⟨hX, V, n + 2, hV⟩]
    rfl

theorem unitarize_su3 {X : M3} (h : IsSU3 X) : ∃ V, unitarize X = some V ∧ IsSU3 V := by
  have hX : X.det ≠ 0 := by rw [h.2]; norm_num
  obtain ⟨V, hV⟩ := Option.isSome_iff_exists.1 ((unitarize_some X).2 hX)
  refine ⟨V, hV, ?_⟩
  have hu : X * Xᴴ = 1 := h.1
  unfold unitarize at hV
  split at hV
  · rename_i hc
    cases hV
    obtain ⟨n, hn⟩ := hc.2.choose_spec
    cases n with
    | zero => cases hn
    | succ n =>
      have k := (C37_explicitly_inverting 1e-15 (by norm_num)).2 n X hu
      rw [k.1] at hn
      rw [← Option.some.inj hn]
      exact k.2
  · cases hV

theorem loopOpt_glob {V : Type} [Inhabited V] {g : Geo} (ok : g.Ok) {f : Fld (Option V)} {F : Fld V} (h : loopOpt g f = some F) {x : Coords}
    (hx : x ∈ box g.L) : glob g f x = some (glob g F x) := by
  obtain ⟨rk, i, hrk, hi, hr, hc, hF⟩ := lxSite ok hx
  rw [hF, hF]
  unfold loopOpt at h
  split at h
  · rename_i hc
    cases h
    obtain ⟨v, hv⟩ := Option.isSome_iff_exists.1 (hc rk hrk i hi)
    simp only [hv]; rfl
  · cases h

theorem loopOpt_some {V : Type} [Inhabited V] {g : Geo} {f : Fld (Option V)} (h : ∀ rk, rk < g.nranks → ∀ i, i < g.locVol → (f rk i).isSome) :
    ∃ F, loopOpt g f = some F := by
  unfold loopOpt
  exact ⟨_, if_pos h⟩

/-- C60: with any method, parameters and grid, and whatever the exponential and the Fourier transform give, when the routine returns the
configuration given back is the gauge transform of the input by a field of matrices of unit determinant, each within the square of the
tolerance from SU(3). -/
theorem C60_gauge_equivalent (ok : E.g.Ok) (fuel : Nat) (s : St) (h : fix E P ext fuel = .done s) :
    (∀ x ∈ box E.g.L, glob E.g s.conf x = transformed E.g (glob E.g s.fixer) (glob E.g ext) x) ∧
    ∀ x ∈ box E.g.L, NearSU3 (glob E.g s.fixer x) := by
  obtain ⟨-, -, -, s1, h3⟩ := outer_done E P ext (fix_done E P ext h)
  obtain ⟨-, -, -, -, k5, k6⟩ := finish_spec E P ext h3
  constructor
  · intro x hx
    rw [k5, C32_gauge_transform ok _ _ _ _ x hx]
  · intro x hx
    have := loopOpt_glob ok k6 hx
    obtain ⟨rk, i, hrk, hi, hr, hc, hF⟩ := lxSite ok hx
    rw [hF, hF] at this
    rw [hF]
    exact unitarize_near this

end

end

end Nissa.GFix
