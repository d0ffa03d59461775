import Verif.Smearing.PropsLinkSmear

/-! # Stout and APE smearing: theorems (C48) -/

set_option linter.all false

namespace Nissa.LSm
open Nissa.Lx Nissa.Sten Nissa.Su3f Nissa.Gauge Nissa.Paths Nissa.Clv Matrix Complex

noncomputable section

attribute [local irreducible] luscher

theorem stoutQ_eq (rho : ℝ) (S U j0 : M3) : stoutQ (rho • S) U j0 = (-I) • (rho • algPart (S * Uᴴ)) := by
  unfold stoutQ
  simp only []
  rw [idouble_eq, algPart_eq, Matrix.smul_mul, algPart_smul]
  congr 1
  push_cast; ring

section
variable {g : Geo} (ok : g.Ok)
include ok

/-- C48: the flow with the exact exponential, as long as the exponents do not fall in the branches where a series is truncated -/
theorem C48_flow_exact (ji : Nat) (jq : Quad) (j0 : M3) (U : Nat → Nat → Quad) (dt : ℝ) (dirs : WhichDirs)
    (hreg : ∀ i, ∀ x ∈ box g.L, ∀ mu, dirs mu = true → let A := (luscher g NormedSpace.exp dt dirs (glob g U) i).1 x mu; A = 0 ∨ Regular A) :
    ∀ x ∈ box g.L, glob g (Wflow_lx_conf g ji jq j0 U dt dirs) x = (luscher g NormedSpace.exp dt dirs (glob g U) 2).2 x := by
  have step : ∀ (A B W V : Coords → Quad), (∀ x ∈ box g.L, ∀ mu, dirs mu = true → A x mu = B x mu) → (∀ x ∈ box g.L, W x = V x) →
      (∀ x ∈ box g.L, ∀ mu, dirs mu = true → (B x mu)ᴴ = -B x mu ∧ Matrix.trace (B x mu) = 0) →
      (∀ x ∈ box g.L, ∀ mu, dirs mu = true → B x mu = 0 ∨ Regular (B x mu)) →
      ∀ x ∈ box g.L, kick anti_hermitian_exact_exponentiate dirs A W x = kick NormedSpace.exp dirs B V x := by
    intro A B W V hA hW hB hR x hx
    funext mu
    unfold kick
    by_cases hmu : dirs mu = true
    · rw [if_pos hmu, if_pos hmu, hW x hx, hA x hx mu hmu]
      congr 1
      rcases hR x hx mu hmu with h | h
      · rw [h, aexp_zero, NormedSpace.exp_zero]
      · exact (C38_anti_exponential _ (hB x hx mu hmu).1 (hB x hx mu hmu).2 h.1 h.2.1 h.2.2).1
    · rw [if_neg hmu, if_neg hmu, hW x hx]
  have e := fun i x mu => C48_exponents (g := g) NormedSpace.exp dt dirs (glob g U) i x mu
  have w1 : ∀ x ∈ box g.L, (luscher g anti_hermitian_exact_exponentiate dt dirs (glob g U) 0).2 x = (luscher g NormedSpace.exp dt dirs (glob g U) 0).2 x := by
    rw [lus_W0, lus_W0]
    exact step _ _ _ _ (fun x _ mu _ => by rw [lus_A0, lus_A0]) (fun _ _ => rfl) (fun x _ mu _ => e 0 x mu) (hreg 0)
  have w2 : ∀ x ∈ box g.L, (luscher g anti_hermitian_exact_exponentiate dt dirs (glob g U) 1).2 x = (luscher g NormedSpace.exp dt dirs (glob g U) 1).2 x := by
    rw [lus_W1, lus_W1]
    exact step _ _ _ _ (fun x hx mu _ => by rw [lus_A1, lus_A1, flowZ_congr ok w1 hx]) w1 (fun x _ mu _ => e 1 x mu) (hreg 1)
  intro x hx
  rw [C48_flow ok ji jq j0 U dt dirs x hx, lus_W2, lus_W2]
  exact step _ _ _ _ (fun x hx mu _ => by rw [lus_A2, lus_A2, flowZ_congr ok w1 hx, flowZ_congr ok w2 hx]) w2 (fun x _ mu _ => e 2 x mu) (hreg 2) x hx

/-! ### Stout, full field -/

/-- C48: one level of stout smearing on a full field: `exp(rho Z) U` in the selected directions, the previous content of the output in
the others. -/
theorem C48_stout_level (ji : Nat) (jq : Quad) (j0 : M3) (out U : Nat → Nat → Quad) (rho : ℝ) (dirs : WhichDirs) :
    ∀ x ∈ box g.L, ∀ mu, glob g (stout_smear_single_level g ji jq j0 out U rho dirs) x mu =
      if dirs mu then stoutSpec g anti_hermitian_exact_exponentiate rho dirs (glob g U) x mu else glob g out x mu := by
  intro x hx mu
  obtain ⟨rk, X, h1, h2, hr, hxg, hG⟩ := lxSite ok hx
  unfold stoutSpec kick
  by_cases hmu : dirs mu = true
  · rw [hG]
    unfold stout_smear_single_level
    simp only [hmu, if_true]
    rw [wStaples_eq ok ji jq U hr h2 hxg, mem_here ok jq U hr h2 hxg, stoutQ_eq]
    rfl
  · rw [hG, hG, if_neg hmu]
    unfold stout_smear_single_level
    simp only [hmu, Bool.false_eq_true, if_false]
    exact (congrFun (hG out) mu).symm

theorem stoutSpec_congr {E : M3 → M3} {rho : ℝ} {dirs : WhichDirs} {U V : Coords → Quad} (h : ∀ x ∈ box g.L, U x = V x) :
    ∀ x ∈ box g.L, stoutSpec g E rho dirs U x = stoutSpec g E rho dirs V x :=
  kick_congr h fun x hx mu => by rw [flowZ_congr ok h hx]

/-- C48: stout smearing in all directions on a full field is the iteration of the elementary level, whatever was in the output -/
theorem C48_stout (ji : Nat) (jq : Quad) (j0 : M3) (out U : Nat → Nat → Quad) (n : Nat) (rho : ℝ) (dirs : WhichDirs) (hall : ∀ mu, dirs mu = true) :
    ∀ x ∈ box g.L, glob g (stout_smear g ji jq j0 out U n rho dirs) x = ((stoutSpec g anti_hermitian_exact_exponentiate rho dirs)^[n] (glob g U)) x := by
  have lev : ∀ o V : Nat → Nat → Quad, ∀ x ∈ box g.L, glob g (stout_smear_single_level g ji jq j0 o V rho dirs) x =
      stoutSpec g anti_hermitian_exact_exponentiate rho dirs (glob g V) x := by
    intro o V x hx
    funext mu
    rw [C48_stout_level ok ji jq j0 o V rho dirs x hx mu, if_pos (hall mu)]
  unfold stout_smear
  rcases Nat.eq_zero_or_pos n with rfl | hn
  · intro x _; rw [if_pos (by decide)]; rfl
  rw [if_neg (by omega), Int.toNat_natCast]
  obtain ⟨k, rfl⟩ : ∃ k, n = k + 1 := ⟨n - 1, by omega⟩
  clear hn
  induction k with
  | zero =>
    intro x hx
    exact lev out U x hx
  | succ k ih =>
    intro x hx
    rw [List.range_succ, List.foldl_append, List.foldl_cons, List.foldl_nil, if_neg (by omega), lev _ _ x hx, Function.iterate_succ_apply']
    exact stoutSpec_congr ok ih x hx

/-- C48: covariance of a level of stout smearing -/
theorem stoutSpec_transformed (G : Coords → M3) (hG : AllUnitary g G) (rho : ℝ) (dirs : WhichDirs) (U V : Coords → Quad)
    (hV : ∀ x ∈ box g.L, V x = transformed g G U x) :
    ∀ x ∈ box g.L, stoutSpec g anti_hermitian_exact_exponentiate rho dirs V x =
      transformed g G (stoutSpec g anti_hermitian_exact_exponentiate rho dirs U) x :=
  kick_transformed _ (fun V A h => aexp_conj V A h) G hG dirs _ _ U V hV fun x hx mu => by
    rw [flowZ_congr ok hV hx, flowZ_transformed ok G hG U hx, Matrix.mul_smul, Matrix.smul_mul]

theorem stoutIter_transformed (G : Coords → M3) (hG : AllUnitary g G) (rho : ℝ) (dirs : WhichDirs) (n : Nat) (U V : Coords → Quad)
    (hV : ∀ x ∈ box g.L, V x = transformed g G U x) :
    ∀ x ∈ box g.L, ((stoutSpec g anti_hermitian_exact_exponentiate rho dirs)^[n] V) x =
      transformed g G ((stoutSpec g anti_hermitian_exact_exponentiate rho dirs)^[n] U) x := by
  induction n with
  | zero => exact hV
  | succ n ih =>
    rw [Function.iterate_succ_apply', Function.iterate_succ_apply']
    exact stoutSpec_transformed ok G hG rho dirs _ _ ih

/-- C48: stout smearing commutes with gauge transformations -/
theorem C48_stout_covariant (ji ji' ji'' : Nat) (jq : Quad) (jg jg' j0 : M3) (out out' U : Nat → Nat → Quad) (G : Nat → Nat → M3)
    (hG : ∀ rk, rk < g.nranks → ∀ i, i < g.locVol → (G rk i)ᴴ * G rk i = 1) (n : Nat) (rho : ℝ) (dirs : WhichDirs) (hall : ∀ mu, dirs mu = true) :
    ∀ x ∈ box g.L, glob g (stout_smear g ji jq j0 out (gauge_transform_conf g ji' jg G U) n rho dirs) x =
      glob g (gauge_transform_conf g ji'' jg' G (stout_smear g ji jq j0 out' U n rho dirs)) x := by
  intro x hx
  rw [C48_stout ok ji jq j0 out _ n rho dirs hall x hx, C32_gauge_transform ok ji'' jg' G _ x hx,
    stoutIter_transformed ok (glob g G) (allUnitary_glob ok G hG) rho dirs n (glob g U) _ (fun x hx => C32_gauge_transform ok ji' jg G U x hx) x hx]
  funext mu
  unfold transformed
  rw [C48_stout ok ji jq j0 out' U n rho dirs hall x hx]

/-- C48: with null parameter, or on pure gauge configurations, stout smearing in all directions does nothing -/
theorem C48_stout_trivial (ji : Nat) (jq : Quad) (j0 : M3) (out U : Nat → Nat → Quad) (n : Nat) (rho : ℝ) (dirs : WhichDirs) (hall : ∀ mu, dirs mu = true)
    (h : rho = 0 ∨ ∀ x ∈ box g.L, ∀ mu, flowZ g (glob g U) x mu = 0) :
    ∀ x ∈ box g.L, glob g (stout_smear g ji jq j0 out U n rho dirs) x = glob g U x := by
  intro x hx
  rw [C48_stout ok ji jq j0 out U n rho dirs hall x hx]
  have : ∀ x ∈ box g.L, ((stoutSpec g anti_hermitian_exact_exponentiate rho dirs)^[n] (glob g U)) x = glob g U x := by
    clear hx x
    induction n with
    | zero => intro x _; rfl
    | succ n ih =>
      intro x hx
      rw [Function.iterate_succ_apply', ← ih x hx]
      refine kick_zero aexp_zero fun mu _ => ?_
      rcases h with h | h
      · rw [h, zero_smul]
      · rw [flowZ_congr ok ih hx, h x hx mu, smul_zero]
  exact this x hx

omit ok in
/-- C48 (violated): on a full field, with some direction not selected, the links in that direction of the output are what was in the
output before (also for the levels after the first), not the links of the input as with even/odd fields. -/
theorem C48_violated_stout_dirs (ji : Nat) (jq : Quad) (j0 : M3) (out U : Nat → Nat → Quad) (n : Nat) (hn : 1 ≤ n) (rho : ℝ) (dirs : WhichDirs) (rk i : Nat) {mu : Dir}
    (hmu : dirs mu = false) : stout_smear g ji jq j0 out U n rho dirs rk i mu = out rk i mu := by
  unfold stout_smear
  rw [if_neg (by omega), Int.toNat_natCast]
  have : ∀ l : List Nat, ∀ o : Nat → Nat → Quad, o rk i mu = out rk i mu → (l.foldl (fun out iter =>
      let temp := if iter = 0 then U else out
      stout_smear_single_level g ji jq j0 out temp rho dirs) o) rk i mu = out rk i mu := by
    intro l
    induction l with
    | nil => exact fun o h => h
    | cons a l ih =>
      intro o h
      rw [List.foldl_cons]
      refine ih _ ?_
      unfold stout_smear_single_level
      simp only [hmu, Bool.false_eq_true, if_false]
      exact h
  exact this _ out rfl

/-! ### Stout, even/odd field -/

variable (eo : EoOk g)
include eo

/-- C48: one level of stout smearing on an even/odd field, for any choice of directions -/
theorem C48_stout_level_eo (ji : Nat) (jq : Quad) (j0 : M3) (U : Nat → Nat → Nat → Quad) (rho : ℝ) (dirs : WhichDirs) :
    ∀ x ∈ box g.L, globEo g (stout_smear_single_level_eo g ji jq j0 U rho dirs) x =
      stoutSpec g anti_hermitian_exact_exponentiate rho dirs (globEo g U) x := by
  intro x hx
  obtain ⟨rk, e, l, h1, h2, hr, hl, hxg, hG, -⟩ := eoSiteOf ok eo hx
  have hp := par_lt ok eo x
  funext mu
  rw [hG]
  unfold stout_smear_single_level_eo stoutSpec kick
  simp only []
  rw [wStaplesEo_eq ok eo ji jq U hr hp h2 hl hxg, eoMem_here ok eo jq U hr hp h2 hl hxg, stoutQ_eq]
  rfl

/-- C48: stout smearing on an even/odd field is the iteration of the elementary level, for any choice of directions -/
theorem C48_stout_eo (ji : Nat) (jq : Quad) (j0 : M3) (U : Nat → Nat → Nat → Quad) (n : Nat) (rho : ℝ) (dirs : WhichDirs) :
    ∀ x ∈ box g.L, globEo g (stout_smear_eo g ji jq j0 U n rho dirs) x = ((stoutSpec g anti_hermitian_exact_exponentiate rho dirs)^[n] (globEo g U)) x := by
  unfold stout_smear_eo
  rcases Nat.eq_zero_or_pos n with rfl | hn
  · intro x _; rw [if_pos rfl]; rfl
  rw [if_neg (by omega)]
  obtain ⟨k, rfl⟩ : ∃ k, n = k + 1 := ⟨n - 1, by omega⟩
  clear hn
  rw [Nat.add_sub_cancel]
  induction k with
  | zero =>
    intro x hx
    exact C48_stout_level_eo ok eo ji jq j0 U rho dirs x hx
  | succ k ih =>
    intro x hx
    rw [List.range_succ, List.foldl_append, List.foldl_cons, List.foldl_nil, C48_stout_level_eo ok eo ji jq j0 _ rho dirs x hx, Function.iterate_succ_apply']
    exact stoutSpec_congr ok ih x hx

/-- C48: the two versions agree: smearing all directions the same configuration held in the two ways gives the same configuration -/
theorem C48_stout_agree (ji ji' : Nat) (jq jq' : Quad) (j0 j0' : M3) (out U : Nat → Nat → Quad) (W : Nat → Nat → Nat → Quad) (h : ∀ x ∈ box g.L, glob g U x = globEo g W x)
    (n : Nat) (rho : ℝ) (dirs : WhichDirs) (hall : ∀ mu, dirs mu = true) :
    ∀ x ∈ box g.L, glob g (stout_smear g ji jq j0 out U n rho dirs) x = globEo g (stout_smear_eo g ji' jq' j0' W n rho dirs) x := by
  intro x hx
  rw [C48_stout ok ji jq j0 out U n rho dirs hall x hx, C48_stout_eo ok eo ji' jq' j0' W n rho dirs x hx]
  have : ∀ n, ∀ x ∈ box g.L, ((stoutSpec g anti_hermitian_exact_exponentiate rho dirs)^[n] (glob g U)) x =
      ((stoutSpec g anti_hermitian_exact_exponentiate rho dirs)^[n] (globEo g W)) x := by
    intro n
    induction n with
    | zero => exact h
    | succ n ih =>
      rw [Function.iterate_succ_apply', Function.iterate_succ_apply']
      exact stoutSpec_congr ok ih
  exact this n x hx

/-! ### APE -/

omit eo
theorem apePropLink_eq (ji : Nat) (jq : Quad) (U : Nat → Nat → Quad) {r : Coords} (hr : IsRank g r) {X : Nat} (hX : X < g.locVol)
    {x : Coords} (hx : glbCoordOfLoclx g r X = some x) (alpha : ℝ) (m : Nat) (mu : Dir) :
    apePropLink (upT g r ji) (dwT g r ji) (mem g jq U r) alpha m X mu =
      glob g U x mu + alpha • stapleSum g (glob g U) (Finset.univ.filter (fun nu => m ≤ nu.val)) x mu := by
  unfold apePropLink
  simp only []
  rw [mem_here ok jq U hr hX hx]
  have e : ((dirs.filter (fun nu => decide (m ≤ nu.val))).foldl (fun stap nu =>
      if nu ≠ mu then stapleStep (upT g r ji) (dwT g r ji) (mem g jq U r) X mu stap nu else stap) 0) =
      stapleSum g (glob g U) (Finset.univ.filter (fun nu => m ≤ nu.val)) x mu := by
    rw [foldl_congr' _ _ (fun s nu => s + if nu ≠ mu then staplePair g (glob g U) x mu nu else 0) fun st nu _ => by
      by_cases hne : nu ≠ mu
      · rw [if_pos hne, if_pos hne, stapleStep_eq ok ji jq U hr hX hx hne]
      · rw [if_neg hne, if_neg hne, add_zero]]
    have gen : ∀ (f : Dir → M3), (dirs.filter (fun nu => decide (m ≤ nu.val))).foldl (fun s nu => s + f nu) 0 = ∑ nu ∈ Finset.univ.filter (fun nu : Dir => m ≤ nu.val), f nu := by
      intro f
      rw [Finset.sum_filter, Fin.sum_univ_four]
      unfold dirs
      simp only [List.filter_cons, List.filter_nil]
      by_cases h0 : m ≤ (0 : Fin 4).val <;> by_cases h1 : m ≤ (1 : Fin 4).val <;> by_cases h2 : m ≤ (2 : Fin 4).val <;> by_cases h3 : m ≤ (3 : Fin 4).val <;>
        simp only [h0, h1, h2, h3, decide_true, decide_false, if_true, Bool.false_eq_true, if_false, List.foldl_cons, List.foldl_nil, zero_add, add_zero]
    rw [gen, ← Finset.sum_filter]
    rfl
  rw [e]
  ext a b
  apply Complex.ext <;> simp

/-- the projection used in the smearing, with the default arguments -/
def apeProj (reuni : M3 → M3) (M : M3) : Option M3 := su3_unitarize_maximal_trace_projecting reuni M 5e-15 20000

/-- C48: a step of APE smearing, when it does not crash: in the selected directions the projection on SU(3) of `U+alpha*staples`, with the
staples in the planes not excluded; the other links as they were. -/
theorem C48_ape_step (proj : M3 → Option M3) (ji : Nat) (jq : Quad) (alpha : ℝ) (dirs : WhichDirs) (m : Nat) (U V : Nat → Nat → Quad)
    (h : apeStep proj g ji jq alpha dirs m U = some V) :
    ∀ x ∈ box g.L, ∀ mu, some (glob g V x mu) = if dirs mu then
      proj (glob g U x mu + alpha • stapleSum g (glob g U) (Finset.univ.filter (fun nu => m ≤ nu.val)) x mu) else some (glob g U x mu) := by
  classical
  intro x hx mu
  obtain ⟨rk, X, h1, h2, hr, hxg, hG⟩ := lxSite ok hx
  unfold apeStep at h
  by_cases hc : ∀ rk < g.nranks, ∀ ivol < g.locVol, ∀ mu, (apeLink proj g ji jq U alpha dirs m rk ivol mu).isSome
  · rw [if_pos hc] at h
    have hV := Option.some.inj h
    have hs := hc rk h1 X h2 mu
    rw [hG V, ← hV]
    obtain ⟨w, hw⟩ := Option.isSome_iff_exists.1 hs
    show some ((apeLink proj g ji jq U alpha dirs m rk X mu).getD 0) = _
    rw [hw, Option.getD_some, ← hw]
    unfold apeLink
    simp only []
    rw [apePropLink_eq ok ji jq U hr h2 hxg, mem_here ok jq U hr h2 hxg]
  · rw [if_neg hc] at h
    cases h

/-- C48: after any positive number of steps of APE smearing the links in the selected directions are SU(3) matrices, whatever they were,
and the others are those of the input. -/
theorem C48_ape (reuni : M3 → M3) (ji : Nat) (jq : Quad) (alpha : ℝ) (dirs : WhichDirs) (m : Nat) (U : Nat → Nat → Quad) (n : Nat) : ∀ V,
    ape_smear_conf (apeProj reuni) g ji jq U alpha n dirs m = some V → ∀ x ∈ box g.L, ∀ mu,
      (dirs mu = false → glob g V x mu = glob g U x mu) ∧ (dirs mu = true → 0 < n → IsSU3 (glob g V x mu)) := by
  induction n with
  | zero =>
    intro V h x hx mu
    have : U = V := Option.some.inj h
    subst this
    exact ⟨fun _ => rfl, fun _ h => absurd h (lt_irrefl _)⟩
  | succ n ih =>
    intro V h x hx mu
    unfold ape_smear_conf at h
    rw [List.range_succ, List.foldl_append, List.foldl_cons, List.foldl_nil] at h
    obtain ⟨W, hW, hV⟩ := Option.bind_eq_some_iff.1 h
    have k := C48_ape_step ok (apeProj reuni) ji jq alpha dirs m W V hV x hx mu
    refine ⟨fun hmu => ?_, fun hmu _ => ?_⟩
    · rw [hmu, if_neg (by decide)] at k
      rw [Option.some.inj k]
      exact (ih W hW x hx mu).1 hmu
    · rw [hmu, if_pos rfl] at k
      exact (C37_max_trace reuni _ _ _ _ k.symm).1

/-- C48: each selected link has, with the matrix it is projected from, a trace at least as large as the identity has -/
theorem C48_ape_trace (reuni : M3 → M3) (ji : Nat) (jq : Quad) (alpha : ℝ) (dirs : WhichDirs) (m : Nat) (U V : Nat → Nat → Quad)
    (h : apeStep (apeProj reuni) g ji jq alpha dirs m U = some V) {x : Coords} (hx : x ∈ box g.L) {mu : Dir} (hmu : dirs mu = true) :
    let M := glob g U x mu + alpha • stapleSum g (glob g U) (Finset.univ.filter (fun nu => m ≤ nu.val)) x mu
    (Matrix.trace Mᴴ).re ≤ (Matrix.trace (glob g V x mu * Mᴴ)).re := by
  have k := C48_ape_step ok (apeProj reuni) ji jq alpha dirs m U V h x hx mu
  rw [hmu, if_pos rfl] at k
  exact (C37_max_trace reuni _ _ _ _ k.symm).2.1

end

/-- a lattice split along two directions -/
def smGeo : Geo := ⟨![4, 4, 4, 4], ![2, 2, 1, 1]⟩

theorem part_herm {M : M3} (h : Mᴴ = M) (hp : ∀ i, 0 < (M i i).re) (k : Fin 3) : su2_part_of_su3 M k = ⟨1, 0, 0, 0⟩ := by
  have hij : ∀ i j, M i j = star (M j i) := fun i j => by
    conv_lhs => rw [← h]
    rfl
  have hre : ∀ i j, (M i j).re = (M j i).re := fun i j => by rw [hij i j]; rfl
  have him : ∀ i j, (M i j).im = -(M j i).im := fun i j => by rw [hij i j]; rfl
  have hd : ∀ i, (M i i).im = 0 := fun i => by have := him i i; linarith
  unfold su2_part_of_su3
  simp only []
  generalize (su3_sub_gr_indices k).1 = a
  generalize (su3_sub_gr_indices k).2 = b
  have pA : 0 < (M a a).re + (M b b).re := add_pos (hp a) (hp b)
  have eB : (M a b).im + (M b a).im = 0 := by rw [him a b]; ring
  have eC : (M a b).re - (M b a).re = 0 := by rw [hre a b]; ring
  have eD : (M a a).im - (M b b).im = 0 := by rw [hd, hd]; ring
  rw [eB, eC, eD]
  have e : √(((M a a).re + (M b b).re) * ((M a a).re + (M b b).re) + 0 * 0 + 0 * 0 + 0 * 0) = (M a a).re + (M b b).re := by
    rw [show ((M a a).re + (M b b).re) * ((M a a).re + (M b b).re) + 0 * 0 + 0 * 0 + 0 * 0 = ((M a a).re + (M b b).re) ^ 2 by ring]
    exact Real.sqrt_sq pA.le
  rw [e, if_neg pA.ne']
  congr 1
  · field_simp
  all_goals ring

theorem sweep_herm {M : M3} (h : Mᴴ = M) (hp : ∀ i, 0 < (M i i).re) (U : M3) : maxTraceSweep (U, M) = ((U, M), 0, 0, 0) := by
  have r1 : ∀ k, rotate2 su2_inv (U, M) k = (U, M) := fun k => by
    unfold rotate2
    simp only [part_herm h hp, su2_inv, neg_zero, one_rot]
  have r2 : ∀ k, rotate2 su2_get_overrelaxing (U, M) k = (U, M) := fun k => by
    unfold rotate2
    simp only [part_herm h hp, su2_get_overrelaxing]
    norm_num [one_rot]
  have n : ∀ k, rotatingNorm (U, M) k = 0 := fun k => by
    unfold rotatingNorm
    simp only [part_herm h hp, su2_inv, su2_nonunitarity]
    norm_num
  unfold maxTraceSweep
  simp only [r1, n, List.foldl_cons, List.foldl_nil, r2]

/-- C48: the projection leaves where it is what is already projected: a Hermitian matrix with positive diagonal (as the sum of equal links
in any gauge where they are the identity) is projected on the identity, without crash. -/
theorem C48_ape_proj_hermitian (reuni : M3 → M3) {M : M3} (h : Mᴴ = M) (hp : ∀ i, 0 < (M i i).re) : apeProj reuni M = some 1 := by
  have sw := sweep_herm h hp 1
  have nu : su3_get_non_unitariness (1 : M3) = 0 := (C37_non_unitariness _).mpr (by simp)
  have st : ∀ fuel iter, iter < 20000 → maxTraceLoop reuni M 5e-15 20000 (fuel + 1) iter (1, M) =
      if 3 ≤ iter then some 1 else maxTraceLoop reuni M 5e-15 20000 fuel (iter + 1) (1, M) := by
    intro fuel iter hi
    rw [maxTraceLoop]
    have p0 : (0 : ℝ) < 5e-15 := by norm_num
    have p1 : ¬ (20000 < iter + 1) := by omega
    have p2 : ¬ ((1e-15 : ℝ) < 0) := by norm_num
    simp only [sw, nu, p0, p1, p2, and_true, and_false, if_false]
  unfold apeProj su3_unitarize_maximal_trace_projecting
  rw [Matrix.one_mul, h, st 20000 0 (by norm_num), if_neg (by norm_num), st 19999 1 (by norm_num), if_neg (by norm_num), st 19998 2 (by norm_num), if_neg (by norm_num),
    st 19997 3 (by norm_num), if_pos (by norm_num)]

/-- C48: with a parameter above `-1/6`, APE smearing any number of times of the configuration of identity links does not crash and gives it back:
in particular the hypothesis of no crash of the theorems above is met. -/
theorem C48_ape_cold {g : Geo} (ok : g.Ok) (reuni : M3 → M3) (ji : Nat) (jq : Quad) (alpha : ℝ) (ha : -1/6 < alpha) (dirs : WhichDirs) :
    apeStep (apeProj reuni) g ji jq alpha dirs 0 (fun _ _ _ => 1) = some (fun rk i mu => (apeLink (apeProj reuni) g ji jq (fun _ _ _ => 1) alpha dirs 0 rk i mu).getD 0) ∧
    ∀ V, apeStep (apeProj reuni) g ji jq alpha dirs 0 (fun _ _ _ => 1) = some V → ∀ x ∈ box g.L, ∀ mu, glob g V x mu = 1 := by
  have hM : ∀ (c : ℝ), 0 < c → apeProj reuni ((c : ℂ) • (1 : M3)) = some 1 := fun c hc => by
    refine C48_ape_proj_hermitian reuni ?_ fun i => ?_
    · rw [conjTranspose_smul, conjTranspose_one]
      congr 1
      exact Complex.conj_ofReal c
    · rw [Matrix.smul_apply, one_apply_eq, smul_eq_mul, mul_one, ofReal_re]; exact hc
  have hs : ∀ x mu, (1 : M3) + alpha • stapleSum g (fun _ _ => 1) (Finset.univ.filter (fun nu : Dir => 0 ≤ nu.val)) x mu = ((1 + 6 * alpha : ℝ) : ℂ) • (1 : M3) := by
    intro x mu
    have hp : ∀ nu, staplePair g (fun _ _ => 1) x mu nu = 2 := by
      intro nu
      unfold staplePair
      simp only [pathProd, conjTranspose_one, Matrix.mul_one]
      exact one_add_one_eq_two
    unfold stapleSum
    simp only [hp, Finset.sum_const]
    have c : ∀ mu : Dir, ((Finset.univ.filter (fun nu : Dir => 0 ≤ nu.val)).filter (· ≠ mu)).card = 3 := by decide
    rw [c mu]
    ext a b
    have e2 : ∀ a b, (2 : M3) a b = 2 * (1 : M3) a b := fun a b => by rw [← one_add_one_eq_two, Matrix.add_apply]; ring
    have e3 : ((3 : ℕ) • (2 : M3)) a b = 6 * (1 : M3) a b := by
      rw [Matrix.smul_apply, e2, nsmul_eq_mul]; push_cast; ring
    rw [Matrix.add_apply, Matrix.smul_apply, e3, Matrix.smul_apply, Complex.real_smul, smul_eq_mul]
    push_cast; ring
  have pos : 0 < 1 + 6 * alpha := by linarith
  have hl : ∀ rk < g.nranks, ∀ i < g.locVol, ∀ mu, apeLink (apeProj reuni) g ji jq (fun _ _ _ => 1) alpha dirs 0 rk i mu = some 1 := by
    intro rk h1 X h2 mu
    obtain ⟨Xc, hXc⟩ := coordTable_exists g ok
    have hxg := hXc rk h1 X h2
    generalize Xc rk X = x at hxg
    unfold apeLink
    simp only []
    rw [apePropLink_eq ok ji jq _ (isRank_coord ok h1) h2 hxg, mem_here ok jq _ (isRank_coord ok h1) h2 hxg]
    show (if dirs mu = true then apeProj reuni ((1 : M3) + alpha • stapleSum g (fun _ _ => 1) _ x mu) else some 1) = _
    rw [hs, hM _ pos]
    split <;> rfl
  refine ⟨?_, fun V hV x hx mu => ?_⟩
  · unfold apeStep
    rw [if_pos fun rk h1 i h2 mu => by rw [hl rk h1 i h2 mu]; rfl]
  · have k := C48_ape_step ok (apeProj reuni) ji jq alpha dirs 0 _ V hV x hx mu
    have e : glob g (fun _ _ (_ : Dir) => (1 : M3)) x mu = 1 := rfl
    have e' : glob g (fun _ _ (_ : Dir) => (1 : M3)) = fun _ _ => 1 := rfl
    rw [e, e', hs, hM _ pos] at k
    have : some (glob g V x mu) = some 1 := by rw [k]; split <;> rfl
    exact Option.some.inj this

open Finset in
theorem card3 : ∀ mu : Dir, mu ≠ 0 → ((univ.filter (fun nu : Dir => 0 ≤ nu.val)).filter (· ≠ mu)).card = 3 := by decide

open Finset in
theorem card2 : ∀ mu : Dir, mu ≠ 0 → ((univ.filter (fun nu : Dir => 1 ≤ nu.val)).filter (· ≠ mu)).card = 2 := by decide

/-- C48 (violated): the smearing called spatial does not exclude the staples along the time.  It is the smearing of the spatial directions with the
staples in all the planes; and the matrices to be projected are really others: already on the configuration with all links equal to the identity
three planes contribute to each spatial link, not two. -/
theorem C48_violated_ape_spatial {g : Geo} (ok : g.Ok) (proj : M3 → Option M3) (ji : Nat) (jq : Quad) (alpha : ℝ) (h0 : alpha ≠ 0) :
    (∀ U n, ape_spatial_smear_conf proj g ji jq U alpha n = ape_smear_conf proj g ji jq U alpha n (allOtherDirs 0) 0) ∧
    ∃ U : Coords → Quad, ∀ x (mu : Dir), mu ≠ 0 →
      U x mu + alpha • stapleSum g U (Finset.univ.filter (fun nu => 0 ≤ nu.val)) x mu ≠
      U x mu + alpha • stapleSum g U (Finset.univ.filter (fun nu => 1 ≤ nu.val)) x mu := by
  refine ⟨fun U n => rfl, fun _ _ => 1, fun x mu hmu h => ?_⟩
  have hp : ∀ nu, staplePair g (fun _ _ => 1) x mu nu = 2 := by
    intro nu
    unfold staplePair
    simp only [pathProd, conjTranspose_one, Matrix.mul_one]
    exact one_add_one_eq_two
  have h := add_left_cancel h
  have h := smul_right_injective M3 h0 h
  unfold stapleSum at h
  simp only [hp, Finset.sum_const] at h
  rw [card3 mu hmu, card2 mu hmu] at h
  have h := congrFun (congrFun h 0) 0
  have e2 : (2 : M3) 0 0 = 2 := rfl
  simp only [Matrix.smul_apply, e2] at h
  norm_num at h

/-- the hypotheses of the theorems are met: any configuration on the split lattice, whose geometry is legal -/
example (out U : Nat → Nat → Quad) : smGeo.Ok ∧ EoOk smGeo ∧ ∀ x ∈ box smGeo.L, glob smGeo (stout_smear smGeo 0 (fun _ => 0) 0 out U 3 (0 : ℝ) (fun _ => true)) x = glob smGeo U x := by
  have ok : smGeo.Ok := by decide
  exact ⟨ok, by decide, C48_stout_trivial ok _ _ _ out U 3 0 _ (fun _ => rfl) (.inl rfl)⟩

end
end Nissa.LSm
