import Verif.Dirac.Clover
import Verif.Field.HaloState

/-! # Clover term and topological charge: theorems -/

set_option linter.all false

namespace Nissa.Clv
open Nissa.Lx Nissa.Sten Nissa.Su3f Nissa.Gauge Nissa.Gamma Nissa.StD Nissa.Wilson Nissa.Paths Matrix Complex

noncomputable section

theorem antisymm4_eq (l : M3) : antisymm4 l = (1 / 4 : ℂ) • (l - lᴴ) := by
  ext i j
  apply Complex.ext <;> simp [antisymm4, conjTranspose_apply] <;> ring

theorem idouble_one (b : M3) : su3_prod_idouble b 1 = I • b := by
  ext i j
  apply Complex.ext <;> simp [su3_prod_idouble]

section
variable {g : Geo} (ok : g.Ok)
include ok

theorem leaves_swap (U : Coords → Quad) {x : Coords} (hx : x ∈ box g.L) (mu nu : Dir) :
    leavesSpec g U x nu mu = (leavesSpec g U x mu nu)ᴴ := by
  have b1 : ∀ (y : Coords) (hy : y ∈ box g.L) (m : Dir), tshift g (tshift g y m 1) m (-1) = y := fun y hy m => tshift_back ok hy m 1 (.inl rfl)
  have b2 : ∀ (y : Coords) (hy : y ∈ box g.L) (m : Dir), tshift g (tshift g y m (-1)) m 1 = y := fun y hy m => tshift_back ok hy m (-1) (.inr rfl)
  have h := fun m d => tshift_mem_box ok hx m d
  have h2 := fun m d m' d' => tshift_mem_box ok (h m d) m' d'
  unfold leavesSpec
  simp only [pathProd, Matrix.mul_one, conjTranspose_add, conjTranspose_mul, conjTranspose_conjTranspose, Matrix.mul_assoc]
  by_cases hne : mu = nu
  · subst hne
    simp only [b1 _ hx, b2 _ hx, b1 _ (h mu 1), b2 _ (h mu (-1)), b1 _ (h mu (-1)), b2 _ (h mu 1)]
    abel
  · have t1 : ∀ (m n : Dir) (d : Int), m ≠ n → tshift g (tshift g (tshift g x m 1) n d) m (-1) = tshift g x n d := by
      intro m n d hmn
      rw [tshift_comm g x hmn, b1 _ (h n d)]
    have t2 : ∀ (m n : Dir) (d : Int), m ≠ n → tshift g (tshift g (tshift g x m (-1)) n d) m 1 = tshift g x n d := by
      intro m n d hmn
      rw [tshift_comm g x hmn, b2 _ (h n d)]
    have hne' := Ne.symm hne
    simp only [t1 mu nu _ hne, t1 nu mu _ hne', t2 mu nu _ hne, t2 nu mu _ hne', b1 _ hx, b2 _ hx]
    simp only [tshift_comm g x hne']
    abel

theorem Fst_swap (U : Coords → Quad) {x : Coords} (hx : x ∈ box g.L) (mu nu : Dir) : Fst g U x nu mu = -Fst g U x mu nu := by
  unfold Fst
  rw [leaves_swap ok U hx mu nu, conjTranspose_conjTranspose, ← smul_neg, neg_sub]

theorem Fst_self (U : Coords → Quad) {x : Coords} (hx : x ∈ box g.L) (mu : Dir) : Fst g U x mu mu = 0 := by
  unfold Fst
  have := leaves_swap ok U hx mu mu
  rw [← this, sub_self, smul_zero]

omit ok in
theorem Fst_antiherm (U : Coords → Quad) (x : Coords) (mu nu : Dir) : (Fst g U x mu nu)ᴴ = -Fst g U x mu nu := by
  unfold Fst
  rw [conjTranspose_smul, conjTranspose_sub, conjTranspose_conjTranspose, ← smul_neg, neg_sub]
  norm_num

/-- C43: on any grid of ranks the four leaves are the four closed squares around the site, in each of the six planes -/
theorem C43_leaves (ji : Nat) (jq : Quad) (l0 : As2t) (U : Nat → Nat → Quad) {r : Coords} (hr : IsRank g r) {X : Nat} (hX : X < g.locVol)
    {x : Coords} (hx : glbCoordOfLoclx g r X = some x) {mu nu : Dir} (hlt : mu < nu) :
    four_leaves_point (upT g r ji) (dwT g r ji) (mem g jq U r) X l0 (Geo.edgeNumb mu nu) = leavesSpec g (glob g U) x mu nu := by
  have hxb : x ∈ box g.L := mem_box.2 (glbCoord_lt ok r (by unfold allVol; omega) hx)
  rw [four_leaves_fill]
  have key := fun m n hne => leavesPlane_eq ok ji jq U hr hX hx hxb (mu := m) (nu := n) hne
  rw [key 0 1 (by decide), key 0 2 (by decide), key 0 3 (by decide), key 1 2 (by decide), key 1 3 (by decide), key 2 3 (by decide)]
  fin_cases mu <;> fin_cases nu <;> first | rfl | (exfalso; revert hlt; decide)

/-- the six components in terms of the field strength -/
theorem chromo_eq (ji : Nat) (jq : Quad) (l0 : As2t) (U : Nat → Nat → Quad) {x : Coords} (hx : x ∈ box g.L) :
    glob g (chromo_operator g ji jq l0 U) x = chromo_of_P ![(2 : ℂ) • Fst g (glob g U) x 0 1, (2 : ℂ) • Fst g (glob g U) x 0 2, (2 : ℂ) • Fst g (glob g U) x 0 3,
      (2 : ℂ) • Fst g (glob g U) x 1 2, (2 : ℂ) • Fst g (glob g U) x 1 3, (2 : ℂ) • Fst g (glob g U) x 2 3] := by
  obtain ⟨rk, X, h1, h2, hr, hxg, hG⟩ := lxSite ok hx
  rw [hG]
  unfold chromo_operator point_chromo_operator
  have key := fun m n hne => leavesPlane_eq ok ji jq U hr h2 hxg hx (mu := m) (nu := n) hne
  simp only [four_leaves_fill]
  rw [key 0 1 (by decide), key 0 2 (by decide), key 0 3 (by decide), key 1 2 (by decide), key 1 3 (by decide), key 2 3 (by decide)]
  congr 1
  have e : ∀ m n : Dir, antisymm4 (leavesSpec g (glob g U) x m n) = (2 : ℂ) • Fst g (glob g U) x m n := by
    intro m n
    rw [antisymm4_eq, Fst, smul_smul]; norm_num
  funext i
  fin_cases i <;> exact e _ _

theorem sigmaF_half (U : Coords → Quad) {x : Coords} (hx : x ∈ box g.L) (i j : Fin 4) :
    sigmaF g U x i j = (γdir 0 * γdir 1) i j • ((2 : ℂ) • Fst g U x 0 1) + (γdir 0 * γdir 2) i j • ((2 : ℂ) • Fst g U x 0 2) +
      (γdir 0 * γdir 3) i j • ((2 : ℂ) • Fst g U x 0 3) + (γdir 1 * γdir 2) i j • ((2 : ℂ) • Fst g U x 1 2) +
      (γdir 1 * γdir 3) i j • ((2 : ℂ) • Fst g U x 1 3) + (γdir 2 * γdir 3) i j • ((2 : ℂ) • Fst g U x 2 3) := by
  unfold sigmaF
  simp only [Fin.sum_univ_four, Fst_self ok U hx, smul_zero, zero_add, add_zero]
  have anti : ∀ m n : Dir, m ≠ n → (γdir n * γdir m) i j = - (γdir m * γdir n) i j := by
    intro m n hmn
    have : γdir n * γdir m = -(γdir m * γdir n) := by
      have := C30_clifford n m
      rw [if_neg (Ne.symm hmn)] at this
      exact eq_neg_of_add_eq_zero_left this
    rw [this]; rfl
  rw [anti 0 1 (by decide), anti 0 2 (by decide), anti 0 3 (by decide), anti 1 2 (by decide), anti 1 3 (by decide), anti 2 3 (by decide),
    Fst_swap ok U hx 0 1, Fst_swap ok U hx 0 2, Fst_swap ok U hx 0 3, Fst_swap ok U hx 1 2, Fst_swap ok U hx 1 3, Fst_swap ok U hx 2 3]
  module

/-- C43: the chromo operator is `sum_{mu,nu} gamma_mu gamma_nu F_mu_nu` at every site of the global lattice -/
theorem C43_chromo (ji : Nat) (jq : Quad) (l0 : As2t) (U : Nat → Nat → Quad) {x : Coords} (hx : x ∈ box g.L) :
    cloverBlock (glob g (chromo_operator g ji jq l0 U) x) = sigmaF g (glob g U) x := by
  rw [chromo_eq ok ji jq l0 U hx]
  funext i j
  rw [sigmaF_half ok _ hx]
  have hA : ∀ m n, ((2 : ℂ) • Fst g (glob g U) x m n)ᴴ = -((2 : ℂ) • Fst g (glob g U) x m n) := by
    intro m n
    rw [conjTranspose_smul, Fst_antiherm, smul_neg]; simp
  have q1 := hA 0 1
  have q2 := hA 0 2
  have q3 := hA 0 3
  have q4 := hA 1 2
  have q5 := hA 1 3
  have q6 := hA 2 3
  generalize (2 : ℂ) • Fst g (glob g U) x 0 1 = P0 at *
  generalize (2 : ℂ) • Fst g (glob g U) x 0 2 = P1 at *
  generalize (2 : ℂ) • Fst g (glob g U) x 0 3 = P2 at *
  generalize (2 : ℂ) • Fst g (glob g U) x 1 2 = P3 at *
  generalize (2 : ℂ) • Fst g (glob g U) x 1 3 = P4 at *
  generalize (2 : ℂ) • Fst g (glob g U) x 2 3 = P5 at *
  unfold chromo_of_P cloverBlock
  simp only [idouble_one]
  have e0 : (![P0, P1, P2, P3, P4, P5] : As2t) 0 = P0 := rfl
  have e1 : (![P0, P1, P2, P3, P4, P5] : As2t) 1 = P1 := rfl
  have e2 : (![P0, P1, P2, P3, P4, P5] : As2t) 2 = P2 := rfl
  have e3 : (![P0, P1, P2, P3, P4, P5] : As2t) 3 = P3 := rfl
  have e4 : (![P0, P1, P2, P3, P4, P5] : As2t) 4 = P4 := rfl
  have e5 : (![P0, P1, P2, P3, P4, P5] : As2t) 5 = P5 := rfl
  rw [e0, e1, e2, e3, e4, e5]
  fin_cases i <;> fin_cases j <;>
    simp [g0, g1, g2, g3, Matrix.mul_apply, Fin.sum_univ_four, q1, q2, q3, q4, q5, q6, conjTranspose_add, conjTranspose_smul, conjTranspose_sub] <;>
    first | done | module | (ext a b; simp; ring)


/-- C43: the chromo operator is hermitian, so that the theorems on the twisted-clover operator apply -/
theorem C43_hermitian (ji : Nat) (jq : Quad) (l0 : As2t) (U : Nat → Nat → Quad) (cSW : ℝ) {rk : Nat} (hrk : rk < g.nranks) {X : Nat} (hX : X < g.locVol) :
    ClHerm (clover_term g ji jq l0 cSW U rk X) := by
  have h : ClHerm (chromo_operator g ji jq l0 U rk X) := by
    obtain ⟨x, hx⟩ := glbCoord_some ok (coordOfLx rk g.R) (i := X) (by unfold allVol; omega)
    have hxb : x ∈ box g.L := mem_box.2 (glbCoord_lt ok _ (by unfold allVol; omega) hx)
    have ho := owner_local ok (isRank_coord ok hrk) hX hx
    rw [lx_coord ok hrk] at ho
    have e := chromo_eq ok ji jq l0 U hxb
    unfold glob at e
    rw [ho] at e
    simp only at e
    rw [e]
    have e' : ∀ (P : As2t), (∀ i, (P i)ᴴ = -P i) → ClHerm (chromo_of_P P) := by
      intro P hP
      unfold chromo_of_P
      simp only [idouble_one]
      constructor <;>
        simp [conjTranspose_smul, conjTranspose_sub, conjTranspose_add, hP] <;> module
    apply e'
    intro i
    fin_cases i <;> simp [conjTranspose_smul, Fst_antiherm]
  unfold clover_term include_cSW adjust_cSW
  refine ⟨?_, ?_⟩
  · rw [conjTranspose_smul, h.1]; simp
  · rw [conjTranspose_smul, h.2]; simp

omit ok in
theorem block_smul (a : ℝ) (Cl : Clov) : cloverBlock (fun i => a • Cl i) = fun i j => a • cloverBlock Cl i j := by
  funext i j
  fin_cases i <;> fin_cases j <;> simp [cloverBlock, conjTranspose_smul]

/-- C43: the clover term is `-(cSW+10^-16)/4 sum_{mu,nu} gamma_mu gamma_nu F_mu_nu` at every site of the global lattice -/
theorem C43_clover_term (ji : Nat) (jq : Quad) (l0 : As2t) (U : Nat → Nat → Quad) (cSW : ℝ) {x : Coords} (hx : x ∈ box g.L) :
    cloverBlock (glob g (clover_term g ji jq l0 cSW U) x) = fun i j => (-(cSW + 10 ^ (-16 : ℤ)) / 4) • sigmaF g (glob g U) x i j := by
  rw [← C43_chromo ok ji jq l0 U hx, ← block_smul]
  unfold clover_term include_cSW adjust_cSW glob chromo_operator_factor cSWshift
  congr 1
  funext i
  norm_num

omit ok in
/-- C43: removing the coefficient after including it gives back the term, unless the coefficient is opposite to the shift -/
theorem C43_remove_include (Cl : Nat → Nat → Clov) (cSW : ℝ) (h : cSW + 1e-16 ≠ 0) :
    remove_cSW (include_cSW Cl cSW) cSW = Cl ∧ include_cSW (remove_cSW Cl cSW) cSW = Cl := by
  unfold remove_cSW include_cSW adjust_cSW chromo_operator_factor cSWshift
  have h' : -(cSW + 1e-16) / 4 ≠ 0 := div_ne_zero (neg_ne_zero.2 h) (by norm_num)
  constructor <;>
  · funext rk X i
    rw [smul_smul]
    generalize -(cSW + 1e-16) / 4 = a at *
    norm_num
    field_simp
    simp

/-! ### Gauge covariance -/

theorem leaves_transformed (G : Coords → M3) (hG : AllUnitary g G) (U : Coords → Quad) {x : Coords} (hx : x ∈ box g.L) {mu nu : Dir} (hne : mu ≠ nu) :
    leavesSpec g (transformed g G U) x mu nu = G x * leavesSpec g U x mu nu * (G x)ᴴ := by
  have h2 : G x * (G x)ᴴ = 1 := mul_eq_one_comm.1 (hG x hx)
  have key : ∀ l : List Move, pathEnd g x l = x → pathProd g (transformed g G U) x l = G x * pathProd g U x l * (G x)ᴴ := by
    intro l hc
    have h := C32_open_path g ok G hG U l x hx
    rw [hc] at h
    rw [← h, Matrix.mul_assoc, h2, Matrix.mul_one]
  have b1 : ∀ (y : Coords) (hy : y ∈ box g.L) (m : Dir), tshift g (tshift g y m 1) m (-1) = y := fun y hy m => tshift_back ok hy m 1 (.inl rfl)
  have b2 : ∀ (y : Coords) (hy : y ∈ box g.L) (m : Dir), tshift g (tshift g y m (-1)) m 1 = y := fun y hy m => tshift_back ok hy m (-1) (.inr rfl)
  have h := fun m d => tshift_mem_box ok hx m d
  have t1 : ∀ (m n : Dir) (d : Int), m ≠ n → tshift g (tshift g (tshift g x m 1) n d) m (-1) = tshift g x n d := by
    intro m n d hmn
    rw [tshift_comm g x hmn, b1 _ (h n d)]
  have t2 : ∀ (m n : Dir) (d : Int), m ≠ n → tshift g (tshift g (tshift g x m (-1)) n d) m 1 = tshift g x n d := by
    intro m n d hmn
    rw [tshift_comm g x hmn, b2 _ (h n d)]
  have hne' := hne.symm
  unfold leavesSpec
  rw [key, key, key, key]
  · simp only [Matrix.mul_add, Matrix.add_mul]
  all_goals
    simp only [pathEnd, if_true, Bool.false_eq_true, if_false, t1 mu nu _ hne, t1 nu mu _ hne', t2 mu nu _ hne, t2 nu mu _ hne', b1 _ hx, b2 _ hx]

theorem Fst_transformed (G : Coords → M3) (hG : AllUnitary g G) (U : Coords → Quad) {x : Coords} (hx : x ∈ box g.L) (mu nu : Dir) :
    Fst g (transformed g G U) x mu nu = G x * Fst g U x mu nu * (G x)ᴴ := by
  by_cases hne : mu = nu
  · subst hne
    rw [Fst_self ok _ hx, Fst_self ok _ hx]; simp
  · unfold Fst
    rw [leaves_transformed ok G hG U hx hne]
    simp only [conjTranspose_mul, conjTranspose_conjTranspose, Matrix.mul_smul, Matrix.smul_mul, Matrix.mul_sub, Matrix.sub_mul, Matrix.mul_assoc]

theorem pathProd_congr {U V : Coords → Quad} (h : ∀ x ∈ box g.L, U x = V x) (l : List Move) : ∀ {x : Coords}, x ∈ box g.L →
    pathProd g U x l = pathProd g V x l := by
  induction l with
  | nil => intro x _; rfl
  | cons m l ih =>
    intro x hx
    obtain ⟨mu, d⟩ := m
    cases d
    · simp only [pathProd]
      rw [ih (tshift_mem_box ok hx mu (-1)), h _ (tshift_mem_box ok hx mu (-1))]
    · simp only [pathProd]
      rw [ih (tshift_mem_box ok hx mu 1), h _ hx]

theorem Fst_congr {U V : Coords → Quad} (h : ∀ x ∈ box g.L, U x = V x) {x : Coords} (hx : x ∈ box g.L) (mu nu : Dir) : Fst g U x mu nu = Fst g V x mu nu := by
  unfold Fst leavesSpec
  simp only [pathProd_congr ok h _ hx]

theorem sigmaF_transformed (G : Coords → M3) (hG : AllUnitary g G) (U : Coords → Quad) {x : Coords} (hx : x ∈ box g.L) (i j : Fin 4) :
    sigmaF g (transformed g G U) x i j = G x * sigmaF g U x i j * (G x)ᴴ := by
  unfold sigmaF
  simp only [Fst_transformed ok G hG U hx, Matrix.mul_sum, Matrix.sum_mul, Matrix.mul_smul, Matrix.smul_mul]

/-- C43: the clover term of the transformed configuration is the transformed clover term -/
theorem C43_covariant (ji ji' : Nat) (jq : Quad) (jg : M3) (l0 : As2t) (U : Nat → Nat → Quad) (G : Nat → Nat → M3)
    (hG : ∀ rk, rk < g.nranks → ∀ i, i < g.locVol → (G rk i)ᴴ * G rk i = 1) (cSW : ℝ) {x : Coords} (hx : x ∈ box g.L) (i j : Fin 4) :
    cloverBlock (glob g (clover_term g ji jq l0 cSW (gauge_transform_conf g ji' jg G U)) x) i j =
      glob g G x * cloverBlock (glob g (clover_term g ji jq l0 cSW U) x) i j * (glob g G x)ᴴ := by
  have hG' : AllUnitary g (glob g G) := by
    intro x hx
    obtain ⟨h1, h2, -⟩ := C02_rank_and_loclx g ok x (mem_box.1 hx)
    exact hG _ h1 _ h2
  rw [C43_clover_term ok ji jq l0 _ cSW hx, C43_clover_term ok ji jq l0 _ cSW hx]
  simp only
  have e : sigmaF g (glob g (gauge_transform_conf g ji' jg G U)) x i j = sigmaF g (transformed g (glob g G) (glob g U)) x i j := by
    unfold sigmaF
    simp only [Fst_congr ok (fun x hx => C32_gauge_transform ok ji' jg G U x hx) hx]
  rw [e, sigmaF_transformed ok _ hG' _ hx, Matrix.mul_smul, Matrix.smul_mul]

/-! ### Topological charge -/

omit ok in
theorem eps_sum (T : Fin 4 → Fin 4 → Fin 4 → Fin 4 → ℝ) : ∑ a : Fin 4, ∑ b : Fin 4, ∑ c : Fin 4, ∑ d : Fin 4, (eps a b c d : ℝ) * T a b c d =
    (T 0 1 2 3 - T 0 1 3 2 - T 1 0 2 3 + T 1 0 3 2) + (T 2 3 0 1 - T 3 2 0 1 - T 2 3 1 0 + T 3 2 1 0)
    - (T 0 2 1 3 - T 0 2 3 1 - T 2 0 1 3 + T 2 0 3 1) - (T 1 3 0 2 - T 3 1 0 2 - T 1 3 2 0 + T 3 1 2 0)
    + (T 0 3 1 2 - T 0 3 2 1 - T 3 0 1 2 + T 3 0 2 1) + (T 1 2 0 3 - T 2 1 0 3 - T 1 2 3 0 + T 2 1 3 0) := by
  simp only [Fin.sum_univ_four]
  simp [eps, show Int.sign 2 = 1 from rfl, show Int.sign 3 = 1 from rfl]
  ring

omit ok in
theorem pair_trace (Qa Qb : M3) : (Qa * Qbᴴ).trace.re - (Qa * Qb).trace.re =
    -32 * (((1 / 8 : ℂ) • (Qa - Qaᴴ)) * ((1 / 8 : ℂ) • (Qb - Qbᴴ))).trace.re := by
  have h1 : (Qaᴴ * Qbᴴ).trace.re = (Qa * Qb).trace.re := by
    rw [← conjTranspose_mul, trace_conjTranspose, trace_mul_comm]; simp
  have h2 : (Qaᴴ * Qb).trace.re = (Qa * Qbᴴ).trace.re := by
    rw [show Qaᴴ * Qb = (Qbᴴ * Qa)ᴴ by rw [conjTranspose_mul, conjTranspose_conjTranspose], trace_conjTranspose, trace_mul_comm]; simp
  rw [Matrix.smul_mul, Matrix.mul_smul, smul_smul, trace_smul, Matrix.sub_mul, Matrix.mul_sub, Matrix.mul_sub, trace_sub, trace_sub, trace_sub]
  rw [show ((1 / 8 : ℂ) * (1 / 8)) = ((1 / 64 : ℝ) : ℂ) by push_cast; norm_num, smul_eq_mul, Complex.re_ofReal_mul]
  simp only [Complex.sub_re, h1, h2]
  ring

theorem charge_eq (ji : Nat) (jq : Quad) (l0 : As2t) (U : Nat → Nat → Quad) {rk : Nat} (hrk : rk < g.nranks) {X : Nat} (hX : X < g.locVol)
    {x : Coords} (hx : glbCoordOfLoclx g (coordOfLx rk g.R) X = some x) :
    local_topological_charge g ji jq l0 U rk X = chargeSpec g (glob g U) x := by
  have hxb : x ∈ box g.L := mem_box.2 (glbCoord_lt ok _ (by unfold allVol; omega) hx)
  have hr := isRank_coord ok hrk
  unfold local_topological_charge
  have key := fun m n hne => leavesPlane_eq ok ji jq U hr hX hx hxb (mu := m) (nu := n) hne
  simp only [four_leaves_fill]
  rw [key 0 1 (by decide), key 0 2 (by decide), key 0 3 (by decide), key 1 2 (by decide), key 1 3 (by decide), key 2 3 (by decide)]
  simp only [List.foldl, chargePair]
  have p := fun m n a b => pair_trace (leavesSpec g (glob g U) x m n) (leavesSpec g (glob g U) x a b)
  show 0 + 1 * ((leavesSpec g (glob g U) x 0 1 * (leavesSpec g (glob g U) x 2 3)ᴴ).trace.re - (leavesSpec g (glob g U) x 0 1 * leavesSpec g (glob g U) x 2 3).trace.re) * _ +
    -1 * ((leavesSpec g (glob g U) x 0 2 * (leavesSpec g (glob g U) x 1 3)ᴴ).trace.re - (leavesSpec g (glob g U) x 0 2 * leavesSpec g (glob g U) x 1 3).trace.re) * _ +
    1 * ((leavesSpec g (glob g U) x 0 3 * (leavesSpec g (glob g U) x 1 2)ᴴ).trace.re - (leavesSpec g (glob g U) x 0 3 * leavesSpec g (glob g U) x 1 2).trace.re) * _ = _
  rw [p, p, p]
  unfold chargeSpec
  rw [eps_sum (fun a b c d => (Fst g (glob g U) x a b * Fst g (glob g U) x c d).trace.re)]
  have sw := fun m n => Fst_swap ok (glob g U) hxb m n
  have p := fun m n a b => pair_trace (leavesSpec g (glob g U) x m n) (leavesSpec g (glob g U) x a b)
  have tc := fun m n a b => congrArg Complex.re (trace_mul_comm (Fst g (glob g U) x m n) (Fst g (glob g U) x a b))
  simp only [sw 0 1, sw 0 2, sw 0 3, sw 1 2, sw 1 3, sw 2 3, neg_mul, mul_neg, neg_neg, trace_neg, Complex.neg_re]
  rw [tc 2 3 0 1, tc 1 3 0 2, tc 1 2 0 3]
  unfold Fst
  have hpi := Real.pi_ne_zero
  field_simp
  ring

/-- C43: the density of topological charge at every site of the global lattice -/
theorem C43_charge_density (ji : Nat) (jq : Quad) (l0 : As2t) (U : Nat → Nat → Quad) {x : Coords} (hx : x ∈ box g.L) :
    glob g (local_topological_charge g ji jq l0 U) x = chargeSpec g (glob g U) x := by
  obtain ⟨rk, X, h1, h2, hr, hxg, hG⟩ := lxSite ok hx
  rw [hG]
  exact charge_eq ok ji jq l0 U h1 h2 hxg

/-- C43: the total charge is the sum over the global lattice, for any grid of ranks and order of the reduction -/
theorem C43_total_charge (ji : Nat) (jq : Quad) (l0 : As2t) (sched : Nat → Nat → List Nat) (hl : ∀ rk, Reduce.Legal (sched rk)) (U : Nat → Nat → Quad) :
    total_topological_charge_lx_conf g ji jq l0 sched U = ∑ x ∈ box g.L, chargeSpec g (glob g U) x := by
  unfold total_topological_charge_lx_conf
  exact reduce_sites ok sched hl (local_topological_charge g ji jq l0 U) (chargeSpec g (glob g U)) fun rk hrk i hi x hx => charge_eq ok ji jq l0 U hrk hi hx

omit ok in
theorem trace_conj (V A B : M3) (h : Vᴴ * V = 1) : ((V * A * Vᴴ) * (V * B * Vᴴ)).trace = (A * B).trace := by
  have e : (V * A * Vᴴ) * (V * B * Vᴴ) = V * (A * B * Vᴴ) := by
    calc _ = V * A * (Vᴴ * V) * B * Vᴴ := by simp only [Matrix.mul_assoc]
      _ = _ := by rw [h]; simp only [Matrix.mul_assoc, Matrix.mul_one, Matrix.one_mul]
  rw [e, trace_mul_comm, Matrix.mul_assoc, h, Matrix.mul_one]

theorem charge_transformed (G : Coords → M3) (hG : AllUnitary g G) (U V : Coords → Quad) (hV : ∀ x ∈ box g.L, V x = transformed g G U x) {x : Coords}
    (hx : x ∈ box g.L) : chargeSpec g V x = chargeSpec g U x := by
  unfold chargeSpec
  have e : ∀ a b, Fst g V x a b = G x * Fst g U x a b * (G x)ᴴ := by
    intro a b
    rw [Fst_congr ok hV hx, Fst_transformed ok G hG U hx]
  simp only [e, trace_conj _ _ _ (hG x hx)]

/-- C43: the total charge is gauge invariant -/
theorem C43_charge_invariant (ji ji' : Nat) (jq : Quad) (jg : M3) (l0 : As2t) (sched sched' : Nat → Nat → List Nat) (hl : ∀ rk, Reduce.Legal (sched rk))
    (hl' : ∀ rk, Reduce.Legal (sched' rk)) (U : Nat → Nat → Quad) (G : Nat → Nat → M3)
    (hG : ∀ rk, rk < g.nranks → ∀ i, i < g.locVol → (G rk i)ᴴ * G rk i = 1) :
    total_topological_charge_lx_conf g ji jq l0 sched (gauge_transform_conf g ji' jg G U) = total_topological_charge_lx_conf g ji jq l0 sched' U := by
  have hG' : AllUnitary g (glob g G) := by
    intro x hx
    obtain ⟨h1, h2, -⟩ := C02_rank_and_loclx g ok x (mem_box.1 hx)
    exact hG _ h1 _ h2
  rw [C43_total_charge ok ji jq l0 sched hl, C43_total_charge ok ji jq l0 sched' hl']
  exact Finset.sum_congr rfl fun x hx => charge_transformed ok _ hG' _ _ (fun x hx => C32_gauge_transform ok ji' jg G U x hx) hx

/-- C43: field strength, clover term and charge vanish on a configuration without curvature -/
theorem C43_flat (ji : Nat) (jq : Quad) (l0 : As2t) (sched : Nat → Nat → List Nat) (hl : ∀ rk, Reduce.Legal (sched rk)) (U : Nat → Nat → Quad)
    (hU : ∀ rk, rk < g.nranks → ∀ i, i < g.locVol → ∀ mu, U rk i mu = 1) (cSW : ℝ) :
    total_topological_charge_lx_conf g ji jq l0 sched U = 0 ∧ ∀ x ∈ box g.L, cloverBlock (glob g (clover_term g ji jq l0 cSW U) x) = 0 := by
  have h1 : ∀ x ∈ box g.L, glob g U x = fun _ => 1 := by
    intro x hx
    obtain ⟨h1, h2, -⟩ := C02_rank_and_loclx g ok x (mem_box.1 hx)
    funext mu
    exact hU _ h1 _ h2 mu
  have h2 : ∀ x ∈ box g.L, ∀ mu nu, Fst g (glob g U) x mu nu = 0 := by
    intro x hx mu nu
    rw [Fst_congr ok (V := fun _ _ => 1) h1 hx]
    simp [Fst, leavesSpec, pathProd]
  constructor
  · rw [C43_total_charge ok ji jq l0 sched hl]
    refine Finset.sum_eq_zero fun x hx => ?_
    unfold chargeSpec
    simp [h2 x hx]
  · intro x hx
    rw [C43_clover_term ok ji jq l0 U cSW hx]
    funext i j
    simp [sigmaF, h2 x hx]

/-- C43: gauge covariance of the twisted-clover operator built with the clover term of the configuration -/
theorem C43_tmclovQ_covariant (ji ji' : Nat) (jq : Quad) (jv : SpCol) (jg : M3) (l0 : As2t) (U : Nat → Nat → Quad) (G : Nat → Nat → M3)
    (hG : ∀ rk, rk < g.nranks → ∀ i, i < g.locVol → (G rk i)ᴴ * G rk i = 1) (cSW kappa : ℝ) (anis : Option ℝ) (mu : ℝ) (v : Nat → Nat → SpCol)
    {x : Coords} (hx : x ∈ box g.L) :
    let U' := gauge_transform_conf g ji' jg G U
    glob g (apply_tmclovQ g ji jq jv U' kappa anis (clover_term g ji jq l0 cSW U') mu (fun rk i => colMul (G rk i) (v rk i))) x =
      colMul (glob g G x) (glob g (apply_tmclovQ g ji jq jv U kappa anis (clover_term g ji jq l0 cSW U) mu v) x) := by
  intro U'
  have hG' : AllUnitary g (glob g G) := by
    intro x hx
    obtain ⟨h1, h2, -⟩ := C02_rank_and_loclx g ok x (mem_box.1 hx)
    exact hG _ h1 _ h2
  rw [C40_tmclovQ ok ji jq jv _ kappa anis _ mu _ hx, C40_tmclovQ ok ji jq jv _ kappa anis _ mu _ hx]
  unfold Qspec
  have e1 : glob g (fun rk i => colMul (G rk i) (v rk i)) = fun c => colMul (glob g G c) (glob g v c) := rfl
  have e2 : wilson g anis (glob g U') (fun c => colMul (glob g G c) (glob g v c)) x = wilson g anis (transformed g (glob g G) (glob g U)) (fun c => colMul (glob g G c) (glob g v c)) x := by
    unfold wilson
    refine Finset.sum_congr rfl fun m _ => ?_
    rw [C32_gauge_transform ok ji' jg G U x hx, C32_gauge_transform ok ji' jg G U _ (tshift_mem_box ok hx m (-1))]
  have e3 : scMul (cloverBlock (glob g (clover_term g ji jq l0 cSW U') x)) (colMul (glob g G x) (glob g v x)) =
      colMul (glob g G x) (scMul (cloverBlock (glob g (clover_term g ji jq l0 cSW U) x)) (glob g v x)) := by
    funext i
    simp only [scMul, colMul]
    rw [Matrix.mulVec_sum]
    refine Finset.sum_congr rfl fun j _ => ?_
    rw [C43_covariant ok ji ji' jq jg l0 U G hG cSW hx i j, Matrix.mulVec_mulVec, Matrix.mulVec_mulVec, Matrix.mul_assoc, hG' x hx, Matrix.mul_one]
  rw [e1]
  simp only
  rw [e2, C40_wilson_covariant ok anis _ hG' _ _ hx, e3, ← colMul_smul, ← colMul_smul, colMul_add, colMul_smul (glob g G x) ((mu : ℂ) * I), colMul_spinMul]
  congr 2
  rw [colMul_add, sub_eq_add_neg, sub_eq_add_neg, colMul_add, ← neg_one_smul ℂ (colMul _ _), ← colMul_smul, neg_one_smul]
end

/-! ### The even/odd wrapper -/

open Nissa.HaloState in
/-- the operations which `total_topological_charge_eo_conf` makes on `lxConf` before reading it: construction, paste of the even/odd configuration
and update of the edges; `presence` is what the construction asks for (`WITH_HALO`, 1, in the code).
`/repo/src/measures/gauge/topological_charge.cpp:97-106` and `:21` -/
def eoChargeOps {D H E : Type} (presence lxConf eoConf : Nat) (d : D) (h : H) (e : E) (paste : World D H E → Nat → D) : List (Op D H E) :=
  [.construct lxConf presence d h e, .kernel [(lxConf, true), (eoConf, false)] paste, .updateEdges lxConf false]

open Nissa.HaloState in
/-- C43 fails for even/odd configurations: `total_topological_charge_eo_conf` always stops the program, as the converted configuration is allocated
without edges; with the edges it would go on. -/
theorem C43_violated_eo_charge {D H E : Type} (exch : D → H) (exchE : D → E) (w : World D H E) (lxConf eoConf : Nat) (hne : lxConf ≠ eoConf) (d : D) (h : H)
    (e : E) (paste : World D H E → Nat → D) :
    run exch exchE w (eoChargeOps 1 lxConf eoConf d h e paste) = none ∧ (run exch exchE w (eoChargeOps 2 lxConf eoConf d h e paste)).isSome := by
  have hne' := hne.symm
  constructor <;>
    simp [eoChargeOps, run, step, construct, HaloState.kernel, World.set, refNew, refDrop, writeAll, updateEdges, updateHalo, startHalo, finishHalo, commEdges,
      invalidateHalo, hne, hne', Function.update_apply]

/-- hypotheses are met: a curved configuration on a lattice distributed on several ranks -/
example : exGeo.Ok ∧ (∀ rk, Reduce.Legal ((fun _ n => List.range n : Nat → Nat → List Nat) rk)) ∧ (1 : ℝ) + 1e-16 ≠ 0 ∧
    (∃ U : M3, Uᴴ * U = 1 ∧ U ≠ 1) := by
  refine ⟨by decide, fun _ n => List.Perm.refl _, by norm_num, -1, by simp, ?_⟩
  intro h
  have := congrFun (congrFun h 0) 0
  norm_num at this

end
end Nissa.Clv
