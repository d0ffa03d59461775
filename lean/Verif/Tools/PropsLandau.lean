import Verif.Tools.Landau
import Verif.Hmc.PropsGaugeAction

/-! # C96: the tool landau -/

set_option linter.all false

namespace Nissa.LandauTool
open Nissa.Lx Nissa.Sten Nissa.Gauge Nissa.Su3f Nissa.GFix Nissa.Gauss Nissa.Paths Matrix

noncomputable section

/-! ### Specification -/

/-- the average over the whole lattice of the real trace of the product of the `n` links met going straight in the direction `mu` from each site -/
def lineAverage (g : Geo) (U : Coords → Quad) (mu : Dir) (n : Nat) : ℝ :=
  (∑ y ∈ box g.L, (pathProd g U y (List.replicate n (mu, true))).trace.re) / g.glbVol

/-- the plaquette of the configuration: average over sites and over the six planes of a third of the real trace of the square -/
def plaquetteOf (g : Geo) (U : Coords → Quad) : ℝ :=
  ((∑ x ∈ box g.L, timePlaq g U x) / (9 * g.glbVol) + (∑ x ∈ box g.L, spacePlaq g U x) / (9 * g.glbVol)) / 2

section
variable (E : Env) (ok : E.g.Ok)
include ok

theorem lengthen_eq (conf : Fld Quad) (mu : Dir) (path : Fld M3) {y : Coords} (hy : y ∈ box E.g.L) :
    glob E.g (lengthen E conf mu path) y = glob E.g conf y mu * glob E.g path (tshift E.g y mu 1) := by
  obtain ⟨rk, i, hrk, hi, hr, hc, hF⟩ := lxSite ok hy
  rw [hF, hF]
  unfold lengthen
  simp only
  rw [mem_up ok E.jm E.ji path hr hi hc]

theorem avgTrace_eq (hl : ∀ rk, Reduce.Legal (E.sched rk)) (path : Fld M3) :
    avgTrace E path = (∑ y ∈ box E.g.L, (glob E.g path y).trace.re) / E.g.glbVol := by
  unfold avgTrace
  rw [reduceAll_eq E ok hl]
  congr 1
  refine Finset.sum_congr rfl fun y hy => ?_
  show (glob E.g path y 0 0).re + (glob E.g path y 1 1).re + (glob E.g path y 2 2).re = _
  rw [Matrix.trace_fin_three]
  simp

theorem profileLoop_eq (hl : ∀ rk, Reduce.Legal (E.sched rk)) (conf : Fld Quad) (mu : Dir) (n x : Nat) (path : Fld M3)
    (h : ∀ y ∈ box E.g.L, glob E.g path y = pathProd E.g (glob E.g conf) y (List.replicate x (mu, true))) :
    profileLoop E conf mu n x path = (List.range n).map fun k => (mu, x + k, lineAverage E.g (glob E.g conf) mu (x + k)) := by
  induction n generalizing x path with
  | zero => rfl
  | succ n ih =>
    rw [List.range_succ_eq_map, List.map_cons, List.map_map]
    unfold profileLoop
    congr 1
    · rw [avgTrace_eq E ok hl]
      unfold lineAverage
      rw [Finset.sum_congr rfl fun y hy => by rw [h y hy]]
      rfl
    · rw [ih (x + 1) _ fun y hy => by
        rw [lengthen_eq E ok conf mu path hy, h _ (tshift_mem_box ok hy mu 1), List.replicate_succ]; rfl]
      refine List.map_congr_left fun k _ => ?_
      simp only [Function.comp, Nat.succ_eq_add_one]
      rw [show x + 1 + k = x + (k + 1) by omega]

/-- C96: the file of the profile holds, for each direction in turn and each length from 0 to half of the extent of the lattice, the average
over the whole lattice of the real trace of the straight lines of that length, whatever the grid of ranks. -/
theorem C96_profile (hl : ∀ rk, Reduce.Legal (E.sched rk)) (conf : Fld Quad) :
    profile E conf = ([0, 1, 2, 3] : List Dir).flatMap fun mu => (List.range (E.g.L mu / 2 + 1)).map fun n =>
      (mu, n, lineAverage E.g (glob E.g conf) mu n) := by
  have h : ∀ mu, profileLoop E conf mu (E.g.L mu / 2 + 1) 0 (fun _ _ => 1) =
      (List.range (E.g.L mu / 2 + 1)).map fun n => (mu, n, lineAverage E.g (glob E.g conf) mu n) := by
    intro mu
    rw [profileLoop_eq E ok hl conf mu _ 0 _ fun y hy => by simp [glob, pathProd]]
    simp
  unfold profile
  simp only [h]
  rfl

/-- C96: the first value of each direction is 3, and all the values are between -3 and 3 for a configuration of unitary links. -/
theorem C96_profile_range (conf : Coords → Quad) (hU : ∀ x ∈ box E.g.L, ∀ mu, conf x mu * (conf x mu)ᴴ = 1) (mu : Dir) (n : Nat) :
    lineAverage E.g conf mu 0 = 3 ∧ |lineAverage E.g conf mu n| ≤ 3 := by
  have hc : (box E.g.L).card = E.g.glbVol := by
    simp [box, Fintype.card_piFinset, Geo.glbVol, C01_volOfLx, Fin.prod_univ_four]
  have hv : (0 : ℝ) < (E.g.glbVol : ℝ) := by
    have := L_pos ok
    have a := this 0; have b := this 1; have c := this 2; have d := this 3
    have : 0 < E.g.glbVol := by unfold Geo.glbVol; rw [C01_volOfLx]; positivity
    exact_mod_cast this
  constructor
  · unfold lineAverage
    simp [pathProd, hc]
    field_simp
  · unfold lineAverage
    rw [abs_div, abs_of_pos hv, div_le_iff₀ hv]
    refine le_trans (Finset.abs_sum_le_sum_abs _ _) ?_
    refine le_trans (Finset.sum_le_card_nsmul _ _ 3 fun y hy => Nissa.GForce.unitary_reTr (Nissa.GForce.pathProd_unitary ok hU _ hy)) ?_
    rw [hc, nsmul_eq_mul, mul_comm]

/-- what is printed is the plaquette -/
theorem plaquette_eq (hl : ∀ rk, Reduce.Legal (E.sched rk)) (conf : Fld Quad) : plaquette E conf = plaquetteOf E.g (glob E.g conf) := by
  unfold plaquette average_plaquette_lx_conf plaquetteOf
  rw [C32_global_plaquette ok E.ji E.jq E.sched hl]

theorem random_eq (coeffs : Fld (Fin 3 → Fin 3 → ℝ)) (hc : ∀ rk i a b, 0 ≤ coeffs rk i a b ∧ coeffs rk i a b ≤ 1) (conf : Fld Quad) :
    ∃ H : Coords → M3, (∀ x ∈ box E.g.L, IsSU3 (H x)) ∧
      ∀ x ∈ box E.g.L, glob E.g (perform_random_gauge_transform E coeffs conf) x = transformed E.g H (glob E.g conf) x := by
  refine ⟨glob E.g fun rk i => su3_put_to_rnd (coeffs rk i), fun x hx => C58_link_su3 _ (hc _ _), fun x hx => ?_⟩
  exact C32_gauge_transform ok _ _ _ _ x hx

theorem start_eq (I : Input) (coeffs : Fld (Fin 3 → Fin 3 → ℝ)) (hc : ∀ rk i a b, 0 ≤ coeffs rk i a b ∧ coeffs rk i a b ≤ 1) (read : Fld Quad) :
    ∃ H : Coords → M3, (∀ x ∈ box E.g.L, IsSU3 (H x)) ∧
      ∀ x ∈ box E.g.L, glob E.g (if I.preliminaryRandomGaugeTransformation ≠ 0 then perform_random_gauge_transform E coeffs read else read) x =
        transformed E.g H (glob E.g read) x := by
  split
  · exact random_eq E ok coeffs hc read
  · exact ⟨fun _ => 1, fun _ _ => su3_one, fun x _ => by rw [(C32_transform_group E.g 1 1 (glob E.g read)).2]⟩

theorem plaquetteOf_invariant (G : Coords → M3) (hG : ∀ x ∈ box E.g.L, IsSU3 (G x)) (U V : Coords → Quad)
    (h : ∀ x ∈ box E.g.L, V x = transformed E.g G U x) : plaquetteOf E.g V = plaquetteOf E.g U := by
  have hG' : AllUnitary E.g G := fun x hx => mul_eq_one_comm.1 (hG x hx).1
  unfold plaquetteOf
  rw [Finset.sum_congr rfl fun x hx => (plaq_invariant ok G hG' U V h hx).1, Finset.sum_congr rfl fun x hx => (plaq_invariant ok G hG' U V h hx).2]

/-- C96: when the tool ends, the configuration written is a gauge transform of the one read, with SU(3) matrices, whether or not a random
transformation was asked first; so the products along closed paths are those of the configuration read, and the two plaquettes printed are equal to
the plaquette of the configuration read. The profile is present when asked, and is that of the configuration written. -/
theorem C96_written (I : Input) (gauge : Nat) (hg : gaugeFromTag I.gauge = some gauge) (he : ExpGood E (parsOf I gauge))
    (hl : ∀ rk, Reduce.Legal (E.sched rk)) (coeffs : Fld (Fin 3 → Fin 3 → ℝ)) (hc : ∀ rk i a b, 0 ≤ coeffs rk i a b ∧ coeffs rk i a b ≤ 1)
    (read : Fld Quad) (fuel : Nat) (R : Result) (h : landau E I coeffs read fuel = .done R) :
    (∃ G : Coords → M3, (∀ x ∈ box E.g.L, IsSU3 (G x)) ∧
      ∀ x ∈ box E.g.L, glob E.g R.written x = transformed E.g G (glob E.g read) x) ∧
    R.before = plaquetteOf E.g (glob E.g read) ∧ R.after = plaquetteOf E.g (glob E.g read) ∧
    (R.profile = if I.computeProfile = 0 then none else
      some (([0, 1, 2, 3] : List Dir).flatMap fun mu => (List.range (E.g.L mu / 2 + 1)).map fun n =>
        (mu, n, lineAverage E.g (glob E.g R.written) mu n))) := by
  obtain ⟨H, hH, hH'⟩ := start_eq E ok I coeffs hc read
  unfold landau at h
  rw [hg] at h
  simp only at h
  generalize (if I.preliminaryRandomGaugeTransformation ≠ 0 then perform_random_gauge_transform E coeffs read else read) = conf at h hH'
  cases hf : fix E (parsOf I gauge) conf fuel with
  | crash => rw [hf] at h; cases h
  | running => rw [hf] at h; cases h
  | done s =>
    rw [hf] at h
    simp only [Out.done.injEq] at h
    subst h
    have h1 := (C60_gauge_equivalent E (parsOf I gauge) conf ok fuel s hf).1
    have h2 := (C60_su3 E ok (parsOf I gauge) conf (fun _ => he) fuel s hf).1
    have h3 : ∀ x ∈ box E.g.L, glob E.g s.conf x = transformed E.g (fun x => glob E.g s.fixer x * H x) (glob E.g read) x := by
      intro x hx
      rw [h1 x hx, transformed_congr E ok _ hH' hx, (C32_transform_group E.g _ _ _).1]
    have h4 : ∀ x ∈ box E.g.L, IsSU3 (glob E.g s.fixer x * H x) := fun x hx => Su3f.su3_mul (h2 x hx) (hH x hx)
    refine ⟨⟨_, h4, h3⟩, ?_, ?_, ?_⟩
    · rw [plaquette_eq E ok hl]
      exact plaquetteOf_invariant E ok H hH _ _ hH'
    · show plaquette E s.conf = _
      rw [plaquette_eq E ok hl]
      exact plaquetteOf_invariant E ok _ h4 _ _ h3
    · show (if I.computeProfile ≠ 0 then some (profile E s.conf) else none) = _
      rw [C96_profile E ok hl]
      by_cases hz : I.computeProfile = 0 <;> simp [hz]

omit ok in
/-- C96: the random numbers matter only if the random transformation is asked, and then all what is written is what would be written starting from
the configuration transformed with them; every other parameter plays the same role. -/
theorem C96_random_transformation (I : Input) (coeffs coeffs' : Fld (Fin 3 → Fin 3 → ℝ)) (read : Fld Quad) (fuel : Nat) :
    (I.preliminaryRandomGaugeTransformation = 0 → landau E I coeffs read fuel = landau E I coeffs' read fuel) ∧
    (I.preliminaryRandomGaugeTransformation ≠ 0 → landau E I coeffs read fuel =
      landau E { I with preliminaryRandomGaugeTransformation := 0 } coeffs'
        (gauge_transform_conf E.g E.ji E.jm (fun rk i => su3_put_to_rnd (coeffs rk i)) read) fuel) := by
  constructor
  · intro h
    unfold landau
    simp only [h, ne_eq, not_true_eq_false, if_false]
  · intro h
    unfold landau
    simp only [h, ne_eq, not_true_eq_false, not_false_eq_true, if_false, if_true]
    rfl

/-- C96: the tool ends for every input with a known gauge and at least as many turns allowed as asked; what it wrote satisfies the gauge
condition to the precision asked, unless the iterations were exhausted. With any other gauge it stops with an error. -/
theorem C96_ends (I : Input) (hl : ∀ rk, Reduce.Legal (E.sched rk)) (coeffs : Fld (Fin 3 → Fin 3 → ℝ)) (read : Fld Quad) :
    (I.gauge ≠ "Landau" → I.gauge ≠ "Coulomb" → ∀ fuel, landau E I coeffs read fuel = .crash) ∧
    ∀ gauge : Nat, (I.gauge = "Landau" ∧ gauge = 0 ∨ I.gauge = "Coulomb" ∧ gauge = 1) → ExpGood E (parsOf I gauge) →
      ∀ fuel : Nat, I.nMaxIters < fuel → 0 < fuel → ∃ (R : Result) (iters : Nat), landau E I coeffs read fuel = .done R ∧
        (iters : Int) ≤ max 1 I.nMaxIters ∧ (gqual E.g gauge (glob E.g R.written) ≤ I.precision ∨ I.nMaxIters ≤ iters) := by
  constructor
  · intro h1 h2 fuel
    unfold landau gaugeFromTag
    rw [if_neg h1, if_neg h2]
  · intro gauge hg he fuel hf h0
    have hg' : gaugeFromTag I.gauge = some gauge := by
      unfold gaugeFromTag
      rcases hg with ⟨h, rfl⟩ | ⟨h, rfl⟩ <;> rw [h]
      · rfl
      · rfl
    unfold landau
    rw [hg']
    generalize (if I.preliminaryRandomGaugeTransformation ≠ 0 then perform_random_gauge_transform E coeffs read else read) = conf
    simp only
    obtain ⟨s, hs⟩ := C60_returns E ok (parsOf I gauge) conf rfl he hl fuel hf h0
    obtain ⟨-, hst⟩ := C60_stops E (parsOf I gauge) conf ok hl
    obtain ⟨-, k2, k3, -, -⟩ := hst fuel s hs
    rw [hs]
    exact ⟨_, s.iter, rfl, k2, k3⟩

end

/-- a run on 12 ranks: random transformation, Coulomb gauge, profile -/
def exInput : Input := ⟨"Coulomb", 1e-10, 0.08, 1000, 0, 1, 1, 1, 1⟩

/-- the hypotheses are met on a configuration which is not in the gauge -/
example : exEnv.g.Ok ∧ gaugeFromTag exInput.gauge = some 1 ∧ ExpGood exEnv (parsOf exInput 1) ∧ (∀ rk, Reduce.Legal (exEnv.sched rk)) ∧
    gqual exEnv.g 1 (glob exEnv.g (ofGlob exEnv.g onePhase)) ≠ 0 ∧
    (∃ R, landau exEnv exInput (fun _ _ _ _ => 1 / 2) (ofGlob exEnv.g onePhase) 1001 = .done R) := by
  refine ⟨exEnv_ok, by unfold gaugeFromTag exInput; decide, exEnv_good _, fun _ n => List.Perm.refl _, ?_, ?_⟩
  · rw [gqual_congr exEnv exEnv_ok fun x hx => glob_ofGlob exEnv_ok _ hx]; exact onePhase_quality exEnv exEnv_ok 1 (by norm_num)
  · obtain ⟨R, _, h, -⟩ := (C96_ends exEnv exEnv_ok exInput (fun _ n => List.Perm.refl _) (fun _ _ _ _ => 1 / 2) (ofGlob exEnv.g onePhase)).2 1
      (.inr ⟨rfl, rfl⟩) (exEnv_good _) 1001 (by norm_num [exInput]) (by norm_num)
    exact ⟨R, h⟩

end

end Nissa.LandauTool
