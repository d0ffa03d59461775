import Verif.Hmc.PropsRhmc7

/-! # C57: a concrete step -/

set_option linter.all false

namespace Nissa.Rhmc
open Nissa.Lx Nissa.Sten Nissa.Su3f Nissa.Gauge Nissa.GForce Nissa.LSm Nissa.StD Nissa.Back Nissa.CgF Nissa.Inv Nissa.QForce Nissa.Omel Matrix Complex
open Nissa.Remez (RatApprox)

/-- the norm which decides the convergence of the projection is never above 2 -/
theorem rotatingNorm_le (s : M3 × M3) (i : Fin 3) : rotatingNorm s i ≤ 2 := by
  unfold rotatingNorm
  have h := part_unit s.2 i
  generalize su2_part_of_su3 s.2 i = r at h
  unfold Su2.n2 at h
  rw [show (2 : ℝ) = Real.sqrt (2 ^ 2) by rw [Real.sqrt_sq]; norm_num]
  refine Real.sqrt_le_sqrt ?_
  unfold su2_nonunitarity su2_inv
  simp only
  nlinarith [sq_nonneg r.A, sq_nonneg r.B, sq_nonneg r.C, sq_nonneg r.D, sq_nonneg (r.A + 1)]

/-- so with a precision above 2 the projection ends, after four passes -/
theorem project_ends (reuni : M3 → M3) (M : M3) (precision : ℝ) (hp : 2 < precision) (niter_max : ℕ) (hn : 4 ≤ niter_max) :
    (su3_unitarize_maximal_trace_projecting reuni M precision niter_max).isSome := by
  have hc : ∀ s, (maxTraceSweep s).2.1 < precision ∧ (maxTraceSweep s).2.2.1 < precision ∧ (maxTraceSweep s).2.2.2 < precision := by
    intro s
    unfold maxTraceSweep
    exact ⟨lt_of_le_of_lt (rotatingNorm_le _ _) hp, lt_of_le_of_lt (rotatingNorm_le _ _) hp, lt_of_le_of_lt (rotatingNorm_le _ _) hp⟩
  have key : ∀ k fuel iter s, iter + k = 3 → k < fuel → (maxTraceLoop reuni M precision niter_max fuel iter s).isSome := by
    intro k
    induction k with
    | zero =>
      intro fuel iter s hi hf
      obtain ⟨fuel, rfl⟩ : ∃ f, fuel = f + 1 := ⟨fuel - 1, by omega⟩
      unfold maxTraceLoop
      simp only
      rw [if_neg (by omega), if_pos ⟨by omega, hc s⟩]
      rfl
    | succ k ih =>
      intro fuel iter s hi hf
      obtain ⟨fuel, rfl⟩ : ∃ f, fuel = f + 1 := ⟨fuel - 1, by omega⟩
      unfold maxTraceLoop
      simp only
      rw [if_neg (by omega), if_neg (by rintro ⟨h, -⟩; omega)]
      exact ih fuel (iter + 1) _ (by omega) (by omega)
  exact key 3 _ 0 _ rfl (by omega)

/-- two staggered quarks: one with two pseudofermions and a background phase -/
noncomputable def exQs : List Fla :=
  [⟨2, 1 / 10, .ROOT_STAG, 0, fun _ _ _ _ => I, [fun rk e c => ((rk + 3 * e + c.val : ℕ) : ℂ), fun _ e _ => (e : ℂ) * I], fun _ _ _ => 1⟩,
   ⟨1, 1 / 2, .ROOT_STAG, 0, fun _ _ _ _ => 1, [fun rk e c => ((2 * rk + e : ℕ) : ℂ)], fun _ _ _ => I⟩]

theorem exQs_ok : ∀ q ∈ exQs, q.Ok fcGeo := by
  intro q hq
  simp only [exQs, List.mem_cons, List.not_mem_nil, or_false] at hq
  rcases hq with rfl | rfl
  · exact ⟨rfl, fun x _ mu => by simp [globEo]⟩
  · exact ⟨rfl, fun x _ mu => by simp [globEo]⟩

theorem unit_noise (u : ℂ) (hu : u ≠ 0) : nrm fcGeo (fun _ n => List.range n) (fun _ _ _ => u) ≠ 0 := by
  rw [nrm_vec (g := fcGeo) (by decide) (by decide) (fun _ _ => List.Perm.refl _)]
  intro h
  rw [norm_eq_zero] at h
  have h0 : (0 : Coords) ∈ boxP fcGeo 0 := by decide
  have := congrFun (congrArg (WithLp.equiv 2 _) h) (⟨0, h0⟩, (0 : Fin 3))
  exact hu this

theorem exQs_phys : ∀ q ∈ exQs, q.Phys fcGeo (fun _ n => List.range n) := by
  intro q hq
  simp only [exQs, List.mem_cons, List.not_mem_nil, or_false] at hq
  rcases hq with rfl | rfl
  · exact ⟨by norm_num, by norm_num, unit_noise 1 one_ne_zero⟩
  · exact ⟨by norm_num, by norm_num, unit_noise I I_ne_zero⟩

/-- nothing stored, and a generator of approximations of degree 1 with the pole in the origin -/
noncomputable def exRat : Nat → RatApprox := fun _ => ⟨0, 0, 0, 0, 0, 0, 0, fun _ => 0, fun _ => 0⟩
noncomputable def exGen : ℝ → ℝ → ℝ → Int → Int → RatApprox := fun lo hi e n d => ⟨lo, hi, e, 1 / 2, n, d, 1, fun _ => 0, fun _ => 1⟩

theorem exPoles (pfr mdr : ℝ) (rank : Nat) : ∀ specs, List.Forall₂ SpecOf exQs specs →
    Poles exQs.length (shift_all_ROOT_STAG_poles exQs (setExpansions exGen fcGeo.nranks rank pfr mdr specs exRat) 1) := by
  intro specs hs k hk
  have hl : specs.length = 2 := hs.length_eq.symm
  have hk6 : k < 6 := hk
  have e : k = 3 * (k / 3) + k % 3 := by omega
  have hv := (Remez.C56_set_expansions exGen fcGeo.nranks pfr mdr (specAt specs) specs.length exRat rank (k / 3) (k % 3) (by omega) (by omega)).2 (fun h => h.1 rfl)
  rw [← e] at hv
  rw [shiftAll_eq]
  simp only [setExpansions, hv, shift_poles_eq]
  intro t ht
  simp only [toRat, exGen, List.range_one, List.map_cons, List.map_nil, List.mem_singleton] at ht
  subst ht
  simp only [one_mul, zero_add, Nat.lt_one_iff, if_true]
  have : k / 3 = 0 ∨ k / 3 = 1 := by omega
  unfold shiftOf
  rcases this with h | h <;> rw [h] <;> simp [exQs]

/-- environments for the actions and the integrator -/
noncomputable def exA (J : Junk) : ActEnv := ⟨J, fun _ n => List.range n, fun _ _ n => List.range n, 0, 0, (0, 0)⟩
noncomputable def exI : IntEnv := ⟨fun _ _ => fcEnv, 0, id, 3, 10⟩
noncomputable def exS : Solvers := ⟨exactSolve (g := fcGeo) (by decide) (by decide), exactSolve (g := fcGeo) (by decide) (by decide), exactSolve (g := fcGeo) (by decide) (by decide)⟩

theorem exEnv_ok (J : Junk) : EnvOk fcGeo (exA J) (exA J) exI exS :=
  ⟨fun _ _ => List.Perm.refl _, fun _ _ _ => List.Perm.refl _, fun _ _ => List.Perm.refl _, fun _ _ _ => List.Perm.refl _, fun _ _ => fcEnv_ok, exactSolve_exact _ _, exactSolve_exact _ _, exactSolve_exact _ _⟩

/-- C57, hypotheses met: a step of ten times three subtrajectories for two flavours, three pseudofermions, from the unit configuration -/
theorem exStep (J : Junk) : ∃ diff out rat', multipseudo_rhmc_step fcGeo (exA J) (exA J) exI exS exGen 0 ⟨.tlsym, 7 / 2, ⟨1, (10 : Nat), (3 : Nat)⟩, 1 / 10 ^ 12, 1 / 10 ^ 6⟩ exQs
    (fun rk p e => fcMom rk e) (fun _ _ _ _ => 1) exRat = some (diff, out, rat') :=
  C57_step_returns (g := fcGeo) (by decide) (by decide) (exA J) (exA J) exI exS (exEnv_ok J) exGen 0 ⟨.tlsym, 7 / 2, ⟨1, (10 : Nat), (3 : Nat)⟩, 1 / 10 ^ 12, 1 / 10 ^ 6⟩ C1_TLSYM
    (by simp only [c1Of, C1_TLSYM]; norm_num) 1 10 3 (by norm_num) (by norm_num) rfl exQs exQs_ok exQs_phys (by intro q hq; simp only [exQs, List.mem_cons, List.not_mem_nil, or_false] at hq; rcases hq with rfl | rfl <;> rfl) _ _
    (fun x hx mu => by simp [globEo]) exRat (exPoles _ _ _) (fun M => project_ends _ _ _ (by norm_num [exI]) _ (by norm_num [exI]))

end Nissa.Rhmc
