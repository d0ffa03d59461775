import Verif.Smearing.LinkSmear

/-! # Smearing of the links: theorems (C48) -/

set_option linter.all false

namespace Nissa.LSm
open Nissa.Lx Nissa.Sten Nissa.Su3f Nissa.Gauge Nissa.Paths Nissa.Clv Matrix Complex

noncomputable section

theorem wn0 : RK_wn 0 = 1 / 4 := by show (1.0 / 4 : ℝ) = 1 / 4; norm_num
theorem wn1 : RK_wn 1 = 8 / 9 := by show (8.0 / 9 : ℝ) = 8 / 9; norm_num
theorem wn2 : RK_wn 2 = 3 / 4 := by show (3.0 / 4 : ℝ) = 3 / 4; norm_num
theorem wo0 : RK_wo 0 = 0 := rfl
theorem wo1 : RK_wo 1 = -17 / 9 := by show (-17.0 / 9 : ℝ) = -17 / 9; norm_num
theorem wo2 : RK_wo 2 = -1 := rfl

section
variable (g : Geo) (E : M3 → M3) (dt : ℝ) (dirs : WhichDirs) (V : Coords → Quad)
theorem lus_A0 (x : Coords) (mu : Dir) : (luscher g E dt dirs V 0).1 x mu = (dt / 4) • flowZ g V x mu := rfl
theorem lus_W0 : (luscher g E dt dirs V 0).2 = kick E dirs (luscher g E dt dirs V 0).1 V := rfl
theorem lus_A1 (x : Coords) (mu : Dir) : (luscher g E dt dirs V 1).1 x mu =
    (8 / 9 * dt) • flowZ g (luscher g E dt dirs V 0).2 x mu - (17 / 36 * dt) • flowZ g V x mu := rfl
theorem lus_W1 : (luscher g E dt dirs V 1).2 = kick E dirs (luscher g E dt dirs V 1).1 (luscher g E dt dirs V 0).2 := rfl
theorem lus_A2 (x : Coords) (mu : Dir) : (luscher g E dt dirs V 2).1 x mu =
    (3 / 4 * dt) • flowZ g (luscher g E dt dirs V 1).2 x mu - (8 / 9 * dt) • flowZ g (luscher g E dt dirs V 0).2 x mu + (17 / 36 * dt) • flowZ g V x mu := rfl
theorem lus_W2 : (luscher g E dt dirs V 2).2 = kick E dirs (luscher g E dt dirs V 2).1 (luscher g E dt dirs V 1).2 := rfl
end
attribute [local irreducible] luscher

/-! ### The exponential -/

theorem prep_congr {Q P : M3} (h0 : su3_real_det Q = su3_real_det P) (h1 : su3_real_trace (Q * Q) = su3_real_trace (P * P)) :
    prepareIngredients Q = prepareIngredients P := by
  unfold prepareIngredients
  simp only [h0, h1]

theorem hexp_conj (V Q : M3) (hV : Vᴴ * V = 1) : hermitian_exact_i_exponentiate (V * Q * Vᴴ) = V * hermitian_exact_i_exponentiate Q * Vᴴ := by
  have hV' : V * Vᴴ = 1 := mul_eq_one_comm.1 hV
  have e2 : V * Q * Vᴴ * (V * Q * Vᴴ) = V * (Q * Q) * Vᴴ := by
    calc V * Q * Vᴴ * (V * Q * Vᴴ) = V * Q * (Vᴴ * V) * Q * Vᴴ := by simp only [Matrix.mul_assoc]
      _ = V * (Q * Q) * Vᴴ := by rw [hV, Matrix.mul_one]; simp only [Matrix.mul_assoc]
  have hd : su3_real_det (V * Q * Vᴴ) = su3_real_det Q := by
    rw [C31_real_det, C31_real_det, Matrix.det_mul_right_comm, hV', Matrix.one_mul]
  have ht : su3_real_trace (V * Q * Vᴴ * (V * Q * Vᴴ)) = su3_real_trace (Q * Q) := by
    rw [trace_eq, trace_eq, e2, Matrix.trace_mul_comm, ← Matrix.mul_assoc, hV, Matrix.one_mul]
  unfold hermitian_exact_i_exponentiate
  simp only [prep_congr hd ht, e2]
  rw [Matrix.mul_add, Matrix.mul_add, Matrix.add_mul, Matrix.add_mul]
  simp only [Matrix.mul_smul, Matrix.smul_mul, Matrix.mul_one, hV']

/-- the exponential of an antihermitian matrix as the code computes it is covariant -/
theorem aexp_conj (V A : M3) (hV : Vᴴ * V = 1) : anti_hermitian_exact_exponentiate (V * A * Vᴴ) = V * anti_hermitian_exact_exponentiate A * Vᴴ := by
  unfold anti_hermitian_exact_exponentiate
  rw [← hexp_conj V _ hV, Matrix.mul_smul, Matrix.smul_mul]

theorem hexp_zero : hermitian_exact_i_exponentiate 0 = 1 := by
  have h0 : su3_real_det 0 = 0 := by rw [C31_real_det]; simp [Matrix.det_fin_three]
  have h1 : su3_real_trace ((0 : M3) * 0) = 0 := by rw [trace_eq]; simp
  have : (prepareIngredients 0).1 = 1 := by
    unfold prepareIngredients
    simp only [h0, h1]
    rw [if_pos (by norm_num)]
    apply Complex.ext <;> norm_num
  unfold hermitian_exact_i_exponentiate
  simp only [this, Matrix.mul_zero, smul_zero, add_zero, one_smul]

theorem aexp_zero : anti_hermitian_exact_exponentiate 0 = 1 := by
  unfold anti_hermitian_exact_exponentiate
  rw [smul_zero, hexp_zero]

/-! ### The projection on the algebra -/

theorem algPart_anti (M : M3) : (algPart M)ᴴ = -algPart M ∧ Matrix.trace (algPart M) = 0 := by
  have h := C38_algebra M 0
  rw [algPart_eq] at h
  exact ⟨h.1, h.2.1⟩

theorem algPart_smul (a : ℝ) (M : M3) : algPart (a • M) = a • algPart M := by
  unfold algPart
  have : (a • M)ᴴ = a • Mᴴ := by rw [conjTranspose_smul]; simp
  rw [this, ← smul_sub, smul_comm, Matrix.trace_smul, smul_sub a]
  congr 1
  rw [smul_div_assoc, smul_assoc]

theorem algPart_conj (V M : M3) (hV : Vᴴ * V = 1) : algPart (V * M * Vᴴ) = V * algPart M * Vᴴ := by
  have hV' : V * Vᴴ = 1 := mul_eq_one_comm.1 hV
  have hc : (V * M * Vᴴ)ᴴ = V * Mᴴ * Vᴴ := by
    rw [conjTranspose_mul, conjTranspose_mul, conjTranspose_conjTranspose, Matrix.mul_assoc]
  unfold algPart
  have hs : V * M * Vᴴ - V * Mᴴ * Vᴴ = V * (M - Mᴴ) * Vᴴ := by rw [Matrix.mul_sub, Matrix.sub_mul]
  rw [hc, hs]
  have ht : Matrix.trace ((1 / 2 : ℂ) • (V * (M - Mᴴ) * Vᴴ)) = Matrix.trace ((1 / 2 : ℂ) • (M - Mᴴ)) := by
    rw [Matrix.trace_smul, Matrix.trace_smul, Matrix.trace_mul_comm, ← Matrix.mul_assoc, hV, Matrix.one_mul]
  rw [ht, Matrix.mul_sub V _ (_ • 1), Matrix.sub_mul]
  simp only [Matrix.mul_smul, Matrix.smul_mul, Matrix.mul_one, hV']

theorem flowZ_anti (g : Geo) (U : Coords → Quad) (x : Coords) (mu : Dir) : (flowZ g U x mu)ᴴ = -flowZ g U x mu ∧ Matrix.trace (flowZ g U x mu) = 0 :=
  algPart_anti _

section
variable {g : Geo} (ok : g.Ok)
include ok

theorem stapleSum_congr {U V : Coords → Quad} (h : ∀ x ∈ box g.L, U x = V x) (s : Finset Dir) {x : Coords} (hx : x ∈ box g.L) (mu : Dir) :
    stapleSum g U s x mu = stapleSum g V s x mu := by
  unfold stapleSum staplePair
  simp only [pathProd_congr ok h _ hx]

theorem flowZ_congr {U V : Coords → Quad} (h : ∀ x ∈ box g.L, U x = V x) {x : Coords} (hx : x ∈ box g.L) (mu : Dir) :
    flowZ g U x mu = flowZ g V x mu := by
  unfold flowZ
  rw [stapleSum_congr ok h _ hx, h x hx]

omit ok in
theorem kick_congr {E : M3 → M3} {dirs : WhichDirs} {A B U V : Coords → Quad} (h : ∀ x ∈ box g.L, U x = V x) (h' : ∀ x ∈ box g.L, ∀ mu, A x mu = B x mu) :
    ∀ x ∈ box g.L, kick E dirs A U x = kick E dirs B V x := by
  intro x hx
  funext mu
  unfold kick
  rw [h x hx, h' x hx]

/-! ### C48, the flow -/

/-- what the argument of the exponential receives at a site -/
theorem update_arg_eq (ji : Nat) (jq : Quad) (j0 : M3) (arg U : Nat → Nat → Quad) (dt : ℝ) (dirs : WhichDirs) (iter : Fin 3) {x : Coords}
    (hx : x ∈ box g.L) {mu : Dir} (hmu : dirs mu = true) :
    glob g (update_arg g ji jq j0 arg U dt dirs iter) x mu = RK_wo iter • glob g arg x mu + (I * ((-RK_wn iter * dt : ℝ) : ℂ)) • flowZ g (glob g U) x mu := by
  obtain ⟨rk, X, h1, h2, hr, hxg, hG⟩ := lxSite ok hx
  rw [hG, hG]
  unfold update_arg
  simp only [hmu, if_true]
  rw [staples_eq ok ji jq U hr h2 hxg mu, mem_here ok jq U hr h2 hxg, idouble_eq, algPart_eq]
  rfl

theorem update_conf_eq (arg U : Nat → Nat → Quad) (dirs : WhichDirs) (A : Coords → Quad) (hA : ∀ x ∈ box g.L, ∀ mu, dirs mu = true → glob g arg x mu = (-I) • A x mu) :
    ∀ x ∈ box g.L, glob g (update_conf arg U dirs) x = kick anti_hermitian_exact_exponentiate dirs A (glob g U) x := by
  intro x hx
  funext mu
  obtain ⟨rk, X, h1, h2, hr, hxg, hG⟩ := lxSite ok hx
  unfold kick
  by_cases hmu : dirs mu = true
  · have := hA x hx mu hmu
    rw [hG] at this
    rw [hG, hG, if_pos hmu]
    unfold update_conf anti_hermitian_exact_exponentiate
    rw [if_pos hmu, this]
  · rw [hG, hG, if_neg hmu]
    unfold update_conf
    rw [if_neg hmu]

/-- C48: on any grid of ranks the flow of the configuration for a step `dt` is the scheme of Luscher on the global lattice, with the
exponential as computed by the library. -/
theorem C48_flow (ji : Nat) (jq : Quad) (j0 : M3) (U : Nat → Nat → Quad) (dt : ℝ) (dirs : WhichDirs) :
    ∀ x ∈ box g.L, glob g (Wflow_lx_conf g ji jq j0 U dt dirs) x = (luscher g anti_hermitian_exact_exponentiate dt dirs (glob g U) 2).2 x := by
  have s : ∀ (r : ℝ) (M : M3), (I * (r : ℂ)) • M = (-I) • ((-r) • M) := by
    intro r M
    rw [← Complex.coe_smul, smul_smul]; push_cast; ring_nf
  have sm : ∀ (a : ℝ) (M : M3), a • ((-I) • M) = (-I) • (a • M) := fun a M => smul_comm _ _ _
  have k1 : ∀ x ∈ box g.L, ∀ mu, dirs mu = true → glob g (update_arg g ji jq j0 (fun _ _ _ => 0) U dt dirs 0) x mu =
      (-I) • (luscher g anti_hermitian_exact_exponentiate dt dirs (glob g U) 0).1 x mu := by
    intro x hx mu hmu
    rw [update_arg_eq ok ji jq j0 _ U dt dirs 0 hx hmu, s, wn0, wo0, zero_smul, zero_add, lus_A0]
    congr 2
    ring
  have q1 : ∀ x ∈ box g.L, glob g (update_conf (update_arg g ji jq j0 (fun _ _ _ => 0) U dt dirs 0) U dirs) x =
      (luscher g anti_hermitian_exact_exponentiate dt dirs (glob g U) 0).2 x := by
    rw [lus_W0]
    exact update_conf_eq ok _ U dirs _ k1
  show ∀ x ∈ box g.L, glob g (flowTurn g ji jq j0 dt dirs (flowTurn g ji jq j0 dt dirs (flowTurn g ji jq j0 dt dirs (fun _ _ _ => 0, U) 0) 1) 2).2 x = _
  have et : flowTurn g ji jq j0 dt dirs (fun _ _ _ => 0, U) 0 = (update_arg g ji jq j0 (fun _ _ _ => 0) U dt dirs 0,
    update_conf (update_arg g ji jq j0 (fun _ _ _ => 0) U dt dirs 0) U dirs) := rfl
  rw [et]
  generalize update_conf (update_arg g ji jq j0 (fun _ _ _ => 0) U dt dirs 0) U dirs = c1 at *
  generalize update_arg g ji jq j0 (fun _ _ _ => 0) U dt dirs 0 = a1 at *
  have k2 : ∀ x ∈ box g.L, ∀ mu, dirs mu = true → glob g (update_arg g ji jq j0 a1 c1 dt dirs 1) x mu =
      (-I) • (luscher g anti_hermitian_exact_exponentiate dt dirs (glob g U) 1).1 x mu := by
    intro x hx mu hmu
    rw [update_arg_eq ok ji jq j0 _ c1 dt dirs 1 hx hmu, s, k1 x hx mu hmu, sm, ← smul_add, flowZ_congr ok q1 hx, lus_A1, lus_A0, wn1, wo1]
    congr 1
    module
  have q2 : ∀ x ∈ box g.L, glob g (update_conf (update_arg g ji jq j0 a1 c1 dt dirs 1) c1 dirs) x =
      (luscher g anti_hermitian_exact_exponentiate dt dirs (glob g U) 1).2 x := by
    intro x hx
    rw [update_conf_eq ok _ c1 dirs _ k2 x hx, lus_W1]
    exact kick_congr q1 (fun _ _ _ => rfl) x hx
  have et2 : flowTurn g ji jq j0 dt dirs (a1, c1) 1 = (update_arg g ji jq j0 a1 c1 dt dirs 1,
    update_conf (update_arg g ji jq j0 a1 c1 dt dirs 1) c1 dirs) := rfl
  rw [et2]
  generalize update_conf (update_arg g ji jq j0 a1 c1 dt dirs 1) c1 dirs = c2 at *
  generalize update_arg g ji jq j0 a1 c1 dt dirs 1 = a2 at *
  have k3 : ∀ x ∈ box g.L, ∀ mu, dirs mu = true → glob g (update_arg g ji jq j0 a2 c2 dt dirs 2) x mu =
      (-I) • (luscher g anti_hermitian_exact_exponentiate dt dirs (glob g U) 2).1 x mu := by
    intro x hx mu hmu
    rw [update_arg_eq ok ji jq j0 _ c2 dt dirs 2 hx hmu, s, k2 x hx mu hmu, sm, ← smul_add, flowZ_congr ok q2 hx, lus_A2, lus_A1, wn2, wo2]
    congr 1
    module
  intro x hx
  show glob g (update_conf (update_arg g ji jq j0 a2 c2 dt dirs 2) c2 dirs) x = _
  rw [update_conf_eq ok _ c2 dirs _ k3 x hx, lus_W2]
  exact kick_congr q2 (fun _ _ _ => rfl) x hx

omit ok in
/-- C48: the links in the directions not selected are not touched, on the whole memory -/
theorem C48_flow_other_dirs (ji : Nat) (jq : Quad) (j0 : M3) (U : Nat → Nat → Quad) (dt : ℝ) (dirs : WhichDirs) (rk i : Nat) {mu : Dir} (hmu : dirs mu = false) :
    Wflow_lx_conf g ji jq j0 U dt dirs rk i mu = U rk i mu := by
  unfold Wflow_lx_conf
  simp [List.foldl, flowTurn, update_conf, hmu]

/-! ### Gauge covariance -/

theorem path_open (G : Coords → M3) (hG : AllUnitary g G) (U : Coords → Quad) {x y : Coords} (hx : x ∈ box g.L) (hy : y ∈ box g.L) (l : List Move)
    (he : pathEnd g x l = y) : pathProd g (transformed g G U) x l = G x * pathProd g U x l * (G y)ᴴ := by
  have h := C32_open_path g ok G hG U l x hx
  rw [he] at h
  rw [← h, Matrix.mul_assoc, mul_eq_one_comm.1 (hG y hy), Matrix.mul_one]

theorem stapleSum_transformed (G : Coords → M3) (hG : AllUnitary g G) (U : Coords → Quad) (s : Finset Dir) {x : Coords} (hx : x ∈ box g.L) (mu : Dir) :
    stapleSum g (transformed g G U) s x mu = G x * stapleSum g U s x mu * (G (tshift g x mu 1))ᴴ := by
  unfold stapleSum
  rw [Matrix.mul_sum, Matrix.sum_mul]
  refine Finset.sum_congr rfl fun nu hnu => ?_
  have hne : nu ≠ mu := (Finset.mem_filter.1 hnu).2
  have hy := tshift_mem_box ok hx mu 1
  unfold staplePair
  rw [path_open ok G hG U hx hy _ ?_, path_open ok G hG U hx hy _ ?_, ← Matrix.add_mul, ← Matrix.mul_add]
  · simp only [pathEnd, if_true, Bool.false_eq_true, if_false]
    rw [tshift_comm g x hne]
    exact tshift_back ok hy nu (-1) (.inr rfl)
  · simp only [pathEnd, if_true, Bool.false_eq_true, if_false]
    rw [tshift_comm g x hne, tshift_back ok hy nu 1 (.inl rfl)]

theorem flowZ_transformed (G : Coords → M3) (hG : AllUnitary g G) (U : Coords → Quad) {x : Coords} (hx : x ∈ box g.L) (mu : Dir) :
    flowZ g (transformed g G U) x mu = G x * flowZ g U x mu * (G x)ᴴ := by
  unfold flowZ
  rw [stapleSum_transformed ok G hG U _ hx mu, ← algPart_conj _ _ (hG x hx)]
  congr 1
  unfold transformed
  rw [conjTranspose_mul, conjTranspose_mul, conjTranspose_conjTranspose]
  have h2 := hG _ (tshift_mem_box ok hx mu 1)
  calc G x * stapleSum g U Finset.univ x mu * (G (tshift g x mu 1))ᴴ * (G (tshift g x mu 1) * ((U x mu)ᴴ * (G x)ᴴ))
      = G x * stapleSum g U Finset.univ x mu * ((G (tshift g x mu 1))ᴴ * G (tshift g x mu 1)) * (U x mu)ᴴ * (G x)ᴴ := by simp only [Matrix.mul_assoc]
    _ = _ := by rw [h2, Matrix.mul_one]; simp only [Matrix.mul_assoc]

omit ok in
theorem kick_transformed (E : M3 → M3) (hE : ∀ V A : M3, Vᴴ * V = 1 → E (V * A * Vᴴ) = V * E A * Vᴴ) (G : Coords → M3) (hG : AllUnitary g G)
    (dirs : WhichDirs) (A B U V : Coords → Quad) (hV : ∀ x ∈ box g.L, V x = transformed g G U x)
    (hB : ∀ x ∈ box g.L, ∀ mu, B x mu = G x * A x mu * (G x)ᴴ) :
    ∀ x ∈ box g.L, kick E dirs B V x = transformed g G (kick E dirs A U) x := by
  intro x hx
  funext mu
  unfold kick
  rw [hV x hx, hB x hx]
  unfold transformed
  by_cases hmu : dirs mu = true
  · rw [if_pos hmu]
    simp only [hmu, if_true]
    rw [hE _ _ (hG x hx)]
    calc G x * E (A x mu) * (G x)ᴴ * (G x * U x mu * (G (tshift g x mu 1))ᴴ) = G x * E (A x mu) * ((G x)ᴴ * G x) * U x mu * (G (tshift g x mu 1))ᴴ := by
          simp only [Matrix.mul_assoc]
      _ = _ := by rw [hG x hx, Matrix.mul_one]; simp only [Matrix.mul_assoc]
  · rw [if_neg hmu]
    simp only [hmu, Bool.false_eq_true, if_false]

theorem luscher_transformed (E : M3 → M3) (hE : ∀ V A : M3, Vᴴ * V = 1 → E (V * A * Vᴴ) = V * E A * Vᴴ) (G : Coords → M3) (hG : AllUnitary g G)
    (dt : ℝ) (dirs : WhichDirs) (U V : Coords → Quad) (hV : ∀ x ∈ box g.L, V x = transformed g G U x) :
    ∀ x ∈ box g.L, (luscher g E dt dirs V 2).2 x = transformed g G (luscher g E dt dirs U 2).2 x := by
  have z : ∀ {A B : Coords → Quad}, (∀ x ∈ box g.L, A x = transformed g G B x) → ∀ x ∈ box g.L, ∀ mu, flowZ g A x mu = G x * flowZ g B x mu * (G x)ᴴ := by
    intro A B h x hx mu
    rw [flowZ_congr ok h hx, flowZ_transformed ok G hG _ hx]
  have e0 : ∀ x ∈ box g.L, ∀ mu, (luscher g E dt dirs V 0).1 x mu = G x * (luscher g E dt dirs U 0).1 x mu * (G x)ᴴ := by
    intro x hx mu
    rw [lus_A0, lus_A0, z hV x hx, Matrix.mul_smul, Matrix.smul_mul]
  have w1 : ∀ x ∈ box g.L, (luscher g E dt dirs V 0).2 x = transformed g G (luscher g E dt dirs U 0).2 x := by
    rw [lus_W0, lus_W0]; exact kick_transformed E hE G hG dirs _ _ U V hV e0
  have e1 : ∀ x ∈ box g.L, ∀ mu, (luscher g E dt dirs V 1).1 x mu = G x * (luscher g E dt dirs U 1).1 x mu * (G x)ᴴ := by
    intro x hx mu
    rw [lus_A1, lus_A1]
    rw [z hV x hx, z w1 x hx]
    simp only [Matrix.mul_sub, Matrix.sub_mul, Matrix.mul_smul, Matrix.smul_mul]
  have w2 : ∀ x ∈ box g.L, (luscher g E dt dirs V 1).2 x = transformed g G (luscher g E dt dirs U 1).2 x := by
    rw [lus_W1, lus_W1]; exact kick_transformed E hE G hG dirs _ _ _ _ w1 e1
  have e2 : ∀ x ∈ box g.L, ∀ mu, (luscher g E dt dirs V 2).1 x mu = G x * (luscher g E dt dirs U 2).1 x mu * (G x)ᴴ := by
    intro x hx mu
    rw [lus_A2, lus_A2]
    rw [z hV x hx, z w1 x hx, z w2 x hx]
    simp only [Matrix.mul_sub, Matrix.sub_mul, Matrix.mul_add, Matrix.add_mul, Matrix.mul_smul, Matrix.smul_mul]
  rw [lus_W2, lus_W2]; exact kick_transformed E hE G hG dirs _ _ _ _ w2 e2

omit ok in
theorem allUnitary_glob (ok : g.Ok) (G : Nat → Nat → M3) (hG : ∀ rk, rk < g.nranks → ∀ i, i < g.locVol → (G rk i)ᴴ * G rk i = 1) : AllUnitary g (glob g G) := by
  intro x hx
  obtain ⟨h1, h2, -⟩ := C02_rank_and_loclx g ok x (mem_box.1 hx)
  exact hG _ h1 _ h2

/-- C48: flowing the gauge transformed configuration gives the gauge transformation of the flowed one, with no condition on the size
of the step or of the exponents. -/
theorem C48_flow_covariant (ji ji' ji'' : Nat) (jq : Quad) (jg jg' j0 : M3) (U : Nat → Nat → Quad) (G : Nat → Nat → M3)
    (hG : ∀ rk, rk < g.nranks → ∀ i, i < g.locVol → (G rk i)ᴴ * G rk i = 1) (dt : ℝ) (dirs : WhichDirs) :
    ∀ x ∈ box g.L, glob g (Wflow_lx_conf g ji jq j0 (gauge_transform_conf g ji' jg G U) dt dirs) x =
      glob g (gauge_transform_conf g ji'' jg' G (Wflow_lx_conf g ji jq j0 U dt dirs)) x := by
  have hG' := allUnitary_glob ok G hG
  intro x hx
  rw [C48_flow ok ji jq j0 _ dt dirs x hx, C32_gauge_transform ok ji'' jg' G _ x hx,
    luscher_transformed ok _ (fun V A h => aexp_conj V A h) (glob g G) hG' dt dirs (glob g U) _ (fun x hx => C32_gauge_transform ok ji' jg G U x hx) x hx]
  funext mu
  unfold transformed
  rw [C48_flow ok ji jq j0 _ dt dirs x hx]

/-! ### Fixed points -/

omit ok in
theorem kick_zero {E : M3 → M3} (hE : E 0 = 1) {dirs : WhichDirs} {A U : Coords → Quad} {x : Coords} (h : ∀ mu, dirs mu = true → A x mu = 0) :
    kick E dirs A U x = U x := by
  funext mu
  unfold kick
  by_cases hmu : dirs mu = true
  · rw [if_pos hmu, h mu hmu, hE, Matrix.one_mul]
  · rw [if_neg hmu]

/-- C48: a configuration where the generator vanishes in the directions of the flow is left as it is, whatever the step. -/
theorem C48_flow_stationary (ji : Nat) (jq : Quad) (j0 : M3) (U : Nat → Nat → Quad) (dt : ℝ) (dirs : WhichDirs)
    (h : ∀ x ∈ box g.L, ∀ mu, dirs mu = true → flowZ g (glob g U) x mu = 0) :
    ∀ x ∈ box g.L, glob g (Wflow_lx_conf g ji jq j0 U dt dirs) x = glob g U x := by
  have w1 : ∀ x ∈ box g.L, (luscher g anti_hermitian_exact_exponentiate dt dirs (glob g U) 0).2 x = glob g U x := by
    intro x hx
    rw [lus_W0]
    exact kick_zero aexp_zero fun mu hmu => by rw [lus_A0, h x hx mu hmu, smul_zero]
  have w2 : ∀ x ∈ box g.L, (luscher g anti_hermitian_exact_exponentiate dt dirs (glob g U) 1).2 x = glob g U x := by
    intro x hx
    rw [← w1 x hx, lus_W1]
    refine kick_zero aexp_zero fun mu hmu => ?_
    rw [lus_A1, flowZ_congr ok w1 hx, h x hx mu hmu, smul_zero, smul_zero, sub_zero]
  intro x hx
  rw [C48_flow ok ji jq j0 U dt dirs x hx, ← w2 x hx, lus_W2]
  refine kick_zero aexp_zero fun mu hmu => ?_
  rw [lus_A2, flowZ_congr ok w1 hx, flowZ_congr ok w2 hx, h x hx mu hmu, smul_zero, smul_zero, smul_zero, sub_zero, add_zero]

/-- C48: a null step does nothing -/
theorem C48_flow_null_step (ji : Nat) (jq : Quad) (j0 : M3) (U : Nat → Nat → Quad) (dirs : WhichDirs) :
    ∀ x ∈ box g.L, glob g (Wflow_lx_conf g ji jq j0 U 0 dirs) x = glob g U x := by
  intro x hx
  have w1 : (luscher g anti_hermitian_exact_exponentiate 0 dirs (glob g U) 0).2 x = glob g U x := by
    rw [lus_W0]
    exact kick_zero aexp_zero fun mu hmu => by rw [lus_A0, zero_div, zero_smul]
  have w2 : (luscher g anti_hermitian_exact_exponentiate 0 dirs (glob g U) 1).2 x = glob g U x := by
    rw [← w1, lus_W1]
    exact kick_zero aexp_zero fun mu hmu => by rw [lus_A1, mul_zero, mul_zero, zero_smul, zero_smul, sub_zero]
  rw [C48_flow ok ji jq j0 U 0 dirs x hx, ← w2, lus_W2]
  exact kick_zero aexp_zero fun mu hmu => by
    rw [lus_A2, mul_zero, mul_zero, mul_zero, zero_smul, zero_smul, zero_smul, sub_zero, add_zero]

omit ok in
theorem flowZ_cold (x : Coords) (mu : Dir) : flowZ g (fun _ _ => 1) x mu = 0 := by
  have h : ∀ nu, staplePair g (fun _ _ => 1) x mu nu = 2 := by
    intro nu
    unfold staplePair
    simp only [pathProd, conjTranspose_one, Matrix.mul_one]
    exact one_add_one_eq_two
  unfold flowZ stapleSum
  simp only [h, Finset.sum_const, conjTranspose_one, Matrix.mul_one]
  unfold algPart
  have : ∀ n : ℕ, ((n • (2 : M3)))ᴴ = n • (2 : M3) := by
    intro n
    rw [conjTranspose_nsmul, show (2 : M3) = 1 + 1 from one_add_one_eq_two.symm, conjTranspose_add, conjTranspose_one]
  rw [this, sub_self, smul_zero, Matrix.trace_zero, zero_div, zero_smul, sub_zero]

/-- C48: the trivial configuration, and hence (covariance) any pure gauge one, does not flow -/
theorem C48_flow_pure_gauge (ji ji' : Nat) (jq : Quad) (jg j0 : M3) (G : Nat → Nat → M3)
    (hG : ∀ rk, rk < g.nranks → ∀ i, i < g.locVol → (G rk i)ᴴ * G rk i = 1) (dt : ℝ) (dirs : WhichDirs) :
    ∀ x ∈ box g.L, glob g (Wflow_lx_conf g ji jq j0 (gauge_transform_conf g ji' jg G (fun _ _ _ => 1)) dt dirs) x =
      glob g (gauge_transform_conf g ji' jg G (fun _ _ _ => 1)) x := by
  refine C48_flow_stationary ok ji jq j0 _ dt dirs fun x hx mu _ => ?_
  rw [flowZ_congr ok (fun x hx => C32_gauge_transform ok ji' jg G (fun _ _ _ => 1) x hx) hx, flowZ_transformed ok _ (allUnitary_glob ok G hG) _ hx]
  have : flowZ g (glob g fun _ _ _ => (1 : M3)) x mu = 0 := flowZ_cold x mu
  rw [this, Matrix.mul_zero, Matrix.zero_mul]

/-! ### The group -/

/-- the library computes the exponential of `A` through the closed formula, without truncated series -/
def Regular (A : M3) : Prop := 4e-3 ≤ expC1 ((-I) • A) ∧ 1e-3 ≤ expEps ((-I) • A) ∧ 0.05 ≤ |expW ((-I) • A)|

omit ok in
theorem kick_su3 {dirs : WhichDirs} {A U : Coords → Quad} {x : Coords} (hU : ∀ mu, IsSU3 (U x mu))
    (hA : ∀ mu, dirs mu = true → (A x mu)ᴴ = -A x mu ∧ Matrix.trace (A x mu) = 0 ∧ (A x mu = 0 ∨ Regular (A x mu))) :
    ∀ mu, IsSU3 (kick anti_hermitian_exact_exponentiate dirs A U x mu) := by
  intro mu
  unfold kick
  by_cases hmu : dirs mu = true
  · rw [if_pos hmu]
    obtain ⟨h1, h2, h3⟩ := hA mu hmu
    rcases h3 with h3 | h3
    · rw [h3, aexp_zero, Matrix.one_mul]; exact hU mu
    · exact su3_mul (C38_anti_exponential _ h1 h2 h3.1 h3.2.1 h3.2.2).2 (hU mu)
  · rw [if_neg hmu]; exact hU mu

omit ok in
theorem anti_smul {A : M3} (h : Aᴴ = -A ∧ Matrix.trace A = 0) (a : ℝ) : (a • A)ᴴ = -(a • A) ∧ Matrix.trace (a • A) = 0 := by
  refine ⟨?_, by rw [Matrix.trace_smul, h.2, smul_zero]⟩
  rw [conjTranspose_smul, h.1]; simp

omit ok in
theorem anti_add {A B : M3} (h : Aᴴ = -A ∧ Matrix.trace A = 0) (k : Bᴴ = -B ∧ Matrix.trace B = 0) : (A + B)ᴴ = -(A + B) ∧ Matrix.trace (A + B) = 0 :=
  ⟨by rw [conjTranspose_add, h.1, k.1, neg_add], by rw [Matrix.trace_add, h.2, k.2, add_zero]⟩

omit ok in
theorem anti_sub {A B : M3} (h : Aᴴ = -A ∧ Matrix.trace A = 0) (k : Bᴴ = -B ∧ Matrix.trace B = 0) : (A - B)ᴴ = -(A - B) ∧ Matrix.trace (A - B) = 0 :=
  ⟨by rw [conjTranspose_sub, h.1, k.1]; abel, by rw [Matrix.trace_sub, h.2, k.2, sub_zero]⟩

omit ok in
/-- C48: at each of the three stages the exponent is traceless and antihermitian -/
theorem C48_exponents (E : M3 → M3) (dt : ℝ) (dirs : WhichDirs) (V : Coords → Quad) (i : Fin 3) (x : Coords) (mu : Dir) :
    ((luscher g E dt dirs V i).1 x mu)ᴴ = -(luscher g E dt dirs V i).1 x mu ∧ Matrix.trace ((luscher g E dt dirs V i).1 x mu) = 0 := by
  rcases (show i = 0 ∨ i = 1 ∨ i = 2 by fin_cases i <;> simp) with rfl | rfl | rfl
  · rw [lus_A0]; exact anti_smul (flowZ_anti g _ x mu) _
  · rw [lus_A1]; exact anti_sub (anti_smul (flowZ_anti g _ x mu) _) (anti_smul (flowZ_anti g _ x mu) _)
  · rw [lus_A2]; exact anti_add (anti_sub (anti_smul (flowZ_anti g _ x mu) _) (anti_smul (flowZ_anti g _ x mu) _)) (anti_smul (flowZ_anti g _ x mu) _)

/-- C48: a flowed configuration of SU(3) matrices is made of SU(3) matrices, as long as the exponents do not fall in the branches where the
library truncates a series (there the result is in the group up to the truncation). -/
theorem C48_flow_su3 (ji : Nat) (jq : Quad) (j0 : M3) (U : Nat → Nat → Quad) (dt : ℝ) (dirs : WhichDirs) {x : Coords} (hx : x ∈ box g.L)
    (hU : ∀ mu, IsSU3 (glob g U x mu))
    (hreg : ∀ i mu, dirs mu = true → let A := (luscher g anti_hermitian_exact_exponentiate dt dirs (glob g U) i).1 x mu; A = 0 ∨ Regular A) :
    ∀ mu, IsSU3 (glob g (Wflow_lx_conf g ji jq j0 U dt dirs) x mu) := by
  rw [C48_flow ok ji jq j0 U dt dirs x hx]
  have e := fun i mu => C48_exponents (g := g) anti_hermitian_exact_exponentiate dt dirs (glob g U) i x mu
  have w1 : ∀ mu, IsSU3 ((luscher g anti_hermitian_exact_exponentiate dt dirs (glob g U) 0).2 x mu) := by
    rw [lus_W0]; exact kick_su3 hU fun mu hmu => ⟨(e 0 mu).1, (e 0 mu).2, hreg 0 mu hmu⟩
  have w2 : ∀ mu, IsSU3 ((luscher g anti_hermitian_exact_exponentiate dt dirs (glob g U) 1).2 x mu) := by
    rw [lus_W1]; exact kick_su3 w1 fun mu hmu => ⟨(e 1 mu).1, (e 1 mu).2, hreg 1 mu hmu⟩
  rw [lus_W2]
  exact kick_su3 w2 fun mu hmu => ⟨(e 2 mu).1, (e 2 mu).2, hreg 2 mu hmu⟩

end
end
end Nissa.LSm
