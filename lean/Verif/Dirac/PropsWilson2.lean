import Verif.Dirac.PropsWilson

/-! # C40: hermiticity, positivity and covariance of the Wilson operators -/

set_option linter.all false

namespace Nissa.Wilson
open Nissa.Lx Nissa.Sten Nissa.Su3f Nissa.Gauge Nissa.Gamma Nissa.StD Matrix Complex

theorem g5sq : Γ 5 * Γ 5 = 1 := C30_gamma5.2.2

theorem g5herm : (Γ 5)ᴴ = Γ 5 := C30_hermitian.2

theorem g5anti (mu : Dir) : γdir mu * Γ 5 = - (Γ 5 * γdir mu) := eq_neg_of_add_eq_zero_left (C30_gamma5.2.1 mu)

theorem fwd_adj (mu : Dir) : (Γ 5 * (1 - γdir mu))ᴴ = Γ 5 * (1 + γdir mu) := by
  rw [conjTranspose_mul, conjTranspose_sub, conjTranspose_one, C30_hermitian.1, g5herm, Matrix.sub_mul, Matrix.mul_add, g5anti]
  simp

theorem bwd_adj (mu : Dir) : (Γ 5 * (1 + γdir mu))ᴴ = Γ 5 * (1 - γdir mu) := by
  rw [← fwd_adj, conjTranspose_conjTranspose]

section
variable {g : Geo} (ok : g.Ok)
include ok

/-- `gamma5` times the hopping is hermitian -/
theorem wilson_hermitian (anis : Option ℝ) (U : Coords → Quad) (y x : Coords → SpCol) :
    dotS (box g.L) y (fun c => spinMul (Γ 5) (wilson g anis U x c)) = dotS (box g.L) (fun c => spinMul (Γ 5) (wilson g anis U y c)) x := by
  simp only [dotS_eq, wilson, spinMul_sum, ip_sum, sum_ip, spinMul_smul, ip_smul, smul_ip, spinMul_add, ip_add, add_ip, spinMul_mul]
  rw [Finset.sum_comm, Finset.sum_comm (s := box g.L)]
  refine Finset.sum_congr rfl fun mu _ => ?_
  rw [← Finset.mul_sum, ← Finset.mul_sum, Finset.sum_add_distrib, Finset.sum_add_distrib]
  rw [sum_shift ok mu (.inl rfl) (fun c d => ip (y c) (spinMul (Γ 5 * (1 - γdir mu)) (colMul (U c mu) (x d))))]
  rw [sum_shift ok mu (.inr rfl) (fun c d => ip (y c) (spinMul (Γ 5 * (1 + γdir mu)) (colMul (U d mu)ᴴ (x d))))]
  rw [neg_neg, add_comm]
  congr 1
  · simp
  congr 1
  · refine Finset.sum_congr rfl fun c _ => ?_
    rw [ip_spin, ip_col, bwd_adj, conjTranspose_conjTranspose, colMul_spinMul]
  · refine Finset.sum_congr rfl fun c _ => ?_
    rw [ip_spin, ip_col, fwd_adj, colMul_spinMul]

/-- C40: `Q` with opposite twisted mass is the adjoint, provided the local term times `gamma5` is hermitian -/
theorem Qspec_adjoint (anis : Option ℝ) (U : Coords → Quad) (k : ℝ) (C : Coords → SpCol → SpCol) (mu : ℝ)
    (hC : ∀ c ∈ box g.L, ∀ y x, ip y (spinMul (Γ 5) (C c x)) = ip (spinMul (Γ 5) (C c y)) x) (y x : Coords → SpCol) :
    dotS (box g.L) y (Qspec g anis U k C mu x) = dotS (box g.L) (Qspec g anis U k C (-mu) y) x := by
  have h := wilson_hermitian ok anis U y x
  simp only [dotS_eq] at h ⊢
  have e1 : ∀ c ∈ box g.L, ip (y c) (Qspec g anis U k C mu x c) = (k : ℂ) * ip (spinMul (Γ 5) (y c)) (x c) - 1 / 2 * ip (y c) (spinMul (Γ 5) (wilson g anis U x c)) +
      ip (spinMul (Γ 5) (C c (y c))) (x c) + (mu : ℂ) * I * ip (y c) (x c) := by
    intro c hc
    unfold Qspec
    rw [ip_add, spinMul_add, spinMul_sub, ip_add, ip_sub, spinMul_smul, spinMul_smul, ip_smul, ip_smul, ip_smul, hC c hc, ip_spin _ _ (x c), g5herm]
  have e2 : ∀ c ∈ box g.L, ip (Qspec g anis U k C (-mu) y c) (x c) = (k : ℂ) * ip (spinMul (Γ 5) (y c)) (x c) - 1 / 2 * ip (spinMul (Γ 5) (wilson g anis U y c)) (x c) +
      ip (spinMul (Γ 5) (C c (y c))) (x c) + (mu : ℂ) * I * ip (y c) (x c) := by
    intro c hc
    unfold Qspec
    rw [add_ip, spinMul_add, spinMul_sub, add_ip, sub_ip, spinMul_smul, spinMul_smul, smul_ip, smul_ip, smul_ip]
    simp
  rw [Finset.sum_congr rfl e1, Finset.sum_congr rfl e2]
  simp only [Finset.sum_add_distrib, Finset.sum_sub_distrib, ← Finset.mul_sum]
  rw [h]

/-- C40: hermiticity of `apply_tmQ` (with `mass` changed of sign in the adjoint) for the scalar product on the global lattice, for all the
configurations (unitary or not), anisotropies and grids of ranks. -/
theorem C40_tmQ_adjoint (ji : Nat) (jq : Quad) (jv : SpCol) (conf : Nat → Nat → Quad) (kappa : ℝ) (anis : Option ℝ) (mass : ℝ) (y x : Nat → Nat → SpCol) :
    dotS (box g.L) (glob g y) (glob g (apply_tmQ g ji jq jv conf kappa anis mass x)) =
      dotS (box g.L) (glob g (apply_tmQ g ji jq jv conf kappa anis (-mass) y)) (glob g x) := by
  have h := Qspec_adjoint ok anis (glob g conf) (1 / (2 * kappa)) (fun _ _ => 0) mass (fun c _ y x => by simp [spinMul_zero, ip]) (glob g y) (glob g x)
  refine Eq.trans ?_ (h.trans ?_)
  · exact Finset.sum_congr rfl fun c hc => by rw [C40_tmQ ok ji jq jv conf kappa anis mass x hc]
  · exact Finset.sum_congr rfl fun c hc => by rw [C40_tmQ ok ji jq jv conf kappa anis (-mass) y hc]

end

/-- a clover term whose diagonal blocks are hermitian -/
def ClHerm (Cl : Clov) : Prop := (Cl 0)ᴴ = Cl 0 ∧ (Cl 2)ᴴ = Cl 2

theorem block_herm {Cl : Clov} (h : ClHerm Cl) : (fun i j => (cloverBlock Cl j i)ᴴ) = cloverBlock Cl := by
  funext i j
  fin_cases i <;> fin_cases j <;> simp [cloverBlock, h.1, h.2]

theorem block_g5 (Cl : Clov) (v : SpCol) : spinMul (Γ 5) (scMul (cloverBlock Cl) v) = scMul (cloverBlock Cl) (spinMul (Γ 5) v) := by
  ext i c
  rw [gamma5_apply]
  fin_cases i <;> simp [scMul, cloverBlock, Fin.sum_univ_four, gamma5_apply, mulVec_neg] <;> ring

theorem clover_hermitian {Cl : Clov} (h : ClHerm Cl) (y x : SpCol) :
    ip y (spinMul (Γ 5) (scMul (cloverBlock Cl) x)) = ip (spinMul (Γ 5) (scMul (cloverBlock Cl) y)) x := by
  rw [ip_spin, ip_scMul, block_herm h, g5herm, ← block_g5]

section
variable {g : Geo} (ok : g.Ok)
include ok

/-- C40: hermiticity of `apply_tmclovQ` for a hermitian clover term (`chromo_operator` builds such one: C41) -/
theorem C40_tmclovQ_adjoint (ji : Nat) (jq : Quad) (jv : SpCol) (conf : Nat → Nat → Quad) (kappa : ℝ) (anis : Option ℝ) (Cl : Nat → Nat → Clov)
    (hCl : ∀ rk, rk < g.nranks → ∀ i, i < g.locVol → ClHerm (Cl rk i)) (mu : ℝ) (y x : Nat → Nat → SpCol) :
    dotS (box g.L) (glob g y) (glob g (apply_tmclovQ g ji jq jv conf kappa anis Cl mu x)) =
      dotS (box g.L) (glob g (apply_tmclovQ g ji jq jv conf kappa anis Cl (-mu) y)) (glob g x) := by
  have h := Qspec_adjoint ok anis (glob g conf) (1 / (2 * kappa)) (fun c => scMul (cloverBlock (glob g Cl c))) mu (fun c hc y x => by
    obtain ⟨rk, X, h1, h2, hr, hx, hG⟩ := lxSite ok hc
    rw [hG Cl]
    exact clover_hermitian (hCl rk h1 X h2) y x) (glob g y) (glob g x)
  refine Eq.trans ?_ (h.trans ?_)
  · exact Finset.sum_congr rfl fun c hc => by rw [C40_tmclovQ ok ji jq jv conf kappa anis Cl mu x hc]
  · exact Finset.sum_congr rfl fun c hc => by rw [C40_tmclovQ ok ji jq jv conf kappa anis Cl (-mu) y hc]

/-- C40: `apply_tmclovQ2` is `Q(mu)^+ Q(mu)`: `<y,Q2 x>=<Q y,Q x>`, so that `<x,Q2 x>=|Q x|^2` -/
theorem C40_tmclovQ2_form (ji : Nat) (jq : Quad) (jv : SpCol) (conf : Nat → Nat → Quad) (kappa : ℝ) (anis : Option ℝ) (Cl : Nat → Nat → Clov)
    (hCl : ∀ rk, rk < g.nranks → ∀ i, i < g.locVol → ClHerm (Cl rk i)) (mu : ℝ) (y x : Nat → Nat → SpCol) :
    dotS (box g.L) (glob g y) (glob g (apply_tmclovQ2 g ji jq jv conf kappa anis Cl mu x)) =
      dotS (box g.L) (glob g (apply_tmclovQ g ji jq jv conf kappa anis Cl mu y)) (glob g (apply_tmclovQ g ji jq jv conf kappa anis Cl mu x)) := by
  unfold apply_tmclovQ2
  simp only
  rw [C40_tmclovQ_adjoint ok ji jq jv conf kappa anis Cl hCl, neg_neg]

end

/-- the operator with twisted mass differs by `i mu` from the one without -/
theorem Qspec_mu (g : Geo) (anis : Option ℝ) (U : Coords → Quad) (k : ℝ) (C : Coords → SpCol → SpCol) (mu : ℝ) (x : Coords → SpCol) (c : Coords) :
    Qspec g anis U k C mu x c = Qspec g anis U k C 0 x c + ((mu : ℂ) * I) • x c := by
  unfold Qspec; simp

theorem dotS_self (s : Finset Coords) (x : Coords → SpCol) : (dotS s x x).im = 0 ∧ 0 ≤ (dotS s x x).re ∧
    (dotS s x x = 0 → ∀ c ∈ s, x c = 0) := by
  have e : ∀ c, ip (x c) (x c) = ((∑ i, ∑ a, normSq (x c i a) : ℝ) : ℂ) := by
    intro c
    unfold ip dotProduct
    push_cast
    refine Finset.sum_congr rfl fun i _ => Finset.sum_congr rfl fun a _ => ?_
    rw [Pi.star_apply, Complex.star_def, mul_comm, mul_conj]
  have nn : ∀ c, 0 ≤ ∑ i, ∑ a, normSq (x c i a) := fun c => Finset.sum_nonneg fun i _ => Finset.sum_nonneg fun a _ => normSq_nonneg _
  rw [dotS_eq, Finset.sum_congr rfl fun c _ => e c, ← ofReal_sum]
  refine ⟨ofReal_im _, ?_, ?_⟩
  · rw [ofReal_re]; exact Finset.sum_nonneg fun c _ => nn c
  · intro h c hc
    have h' := ofReal_eq_zero.1 h
    rw [Finset.sum_eq_zero_iff_of_nonneg fun c _ => nn c] at h'
    have h2 := h' c hc
    rw [Finset.sum_eq_zero_iff_of_nonneg fun i _ => Finset.sum_nonneg fun a _ => normSq_nonneg _] at h2
    funext i a
    have h3 := h2 i (Finset.mem_univ i)
    rw [Finset.sum_eq_zero_iff_of_nonneg fun a _ => normSq_nonneg _] at h3
    exact normSq_eq_zero.1 (h3 a (Finset.mem_univ a))

section
variable {g : Geo} (ok : g.Ok)
include ok

/-- C40: `<x,Q2 x> = |Q(0) x|^2 + mu^2 |x|^2`: the operator is hermitian and positive definite for all nonvanishing twisted masses. -/
theorem C40_tmclovQ2_positive (ji : Nat) (jq : Quad) (jv : SpCol) (conf : Nat → Nat → Quad) (kappa : ℝ) (anis : Option ℝ) (Cl : Nat → Nat → Clov)
    (hCl : ∀ rk, rk < g.nranks → ∀ i, i < g.locVol → ClHerm (Cl rk i)) (mu : ℝ) (x : Nat → Nat → SpCol) :
    dotS (box g.L) (glob g x) (glob g (apply_tmclovQ2 g ji jq jv conf kappa anis Cl mu x)) =
      dotS (box g.L) (glob g (apply_tmclovQ g ji jq jv conf kappa anis Cl 0 x)) (glob g (apply_tmclovQ g ji jq jv conf kappa anis Cl 0 x)) +
      (mu ^ 2 : ℝ) * dotS (box g.L) (glob g x) (glob g x) ∧
    (mu ≠ 0 → (∃ c ∈ box g.L, glob g x c ≠ 0) →
      0 < (dotS (box g.L) (glob g x) (glob g (apply_tmclovQ2 g ji jq jv conf kappa anis Cl mu x))).re) := by
  have key : dotS (box g.L) (glob g x) (glob g (apply_tmclovQ2 g ji jq jv conf kappa anis Cl mu x)) =
      dotS (box g.L) (glob g (apply_tmclovQ g ji jq jv conf kappa anis Cl 0 x)) (glob g (apply_tmclovQ g ji jq jv conf kappa anis Cl 0 x)) +
      (mu ^ 2 : ℝ) * dotS (box g.L) (glob g x) (glob g x) := by
    rw [C40_tmclovQ2_form ok ji jq jv conf kappa anis Cl hCl]
    have hq : ∀ c ∈ box g.L, glob g (apply_tmclovQ g ji jq jv conf kappa anis Cl mu x) c =
        glob g (apply_tmclovQ g ji jq jv conf kappa anis Cl 0 x) c + ((mu : ℂ) * I) • glob g x c := by
      intro c hc
      rw [C40_tmclovQ ok ji jq jv conf kappa anis Cl mu x hc, C40_tmclovQ ok ji jq jv conf kappa anis Cl 0 x hc, Qspec_mu]
    have hh := C40_tmclovQ_adjoint ok ji jq jv conf kappa anis Cl hCl 0 x x
    rw [neg_zero] at hh
    simp only [dotS_eq] at hh ⊢
    rw [Finset.sum_congr rfl fun c hc => by rw [hq c hc]]
    simp only [ip_add, add_ip, ip_smul, smul_ip]
    simp only [Finset.sum_add_distrib, ← Finset.mul_sum]
    rw [hh]
    simp only [star_mul', Complex.star_def, conj_I, conj_ofReal]
    push_cast
    have hI : I * I = -1 := I_mul_I
    linear_combination (-(mu : ℂ) ^ 2 * ∑ c ∈ box g.L, ip (glob g x c) (glob g x c)) * hI
  refine ⟨key, fun hm ⟨c, hc, hne⟩ => ?_⟩
  rw [key]
  have h1 := dotS_self (box g.L) (glob g (apply_tmclovQ g ji jq jv conf kappa anis Cl 0 x))
  have h2 := dotS_self (box g.L) (glob g x)
  have h3 : 0 < (dotS (box g.L) (glob g x) (glob g x)).re := by
    rcases h2.2.1.lt_or_eq with h | h
    · exact h
    · exact absurd (h2.2.2 (Complex.ext h.symm h2.1) c hc) hne
  rw [add_re, re_ofReal_mul]
  have : 0 < mu ^ 2 := by positivity
  nlinarith [h1.2.1, mul_pos this h3]

/-- C40: `apply_tmclovQ2_m2` called with a nonnegative `mu2` squares the operator of twisted mass `sqrt(mu2)`: `Q(0)^2+mu2`. -/
theorem C40_tmclovQ2_m2 (ji : Nat) (jq : Quad) (jv : SpCol) (conf : Nat → Nat → Quad) (kappa : ℝ) (anis : Option ℝ) (Cl : Nat → Nat → Clov)
    (mu2 : ℝ) (hm : 0 ≤ mu2) (x : Nat → Nat → SpCol) {c : Coords} (hc : c ∈ box g.L) :
    glob g (apply_tmclovQ2_m2 g ji jq jv conf kappa anis Cl mu2 x) c =
      glob g (apply_tmclovQ g ji jq jv conf kappa anis Cl 0 (apply_tmclovQ g ji jq jv conf kappa anis Cl 0 x)) c + (mu2 : ℂ) • glob g x c := by
  unfold apply_tmclovQ2_m2 apply_tmclovQ2
  simp only
  set m := Real.sqrt mu2 with hmdef
  have hmm : m * m = mu2 := Real.mul_self_sqrt hm
  rw [C40_tmclovQ ok ji jq jv conf kappa anis Cl (-m) _ hc, C40_tmclovQ ok ji jq jv conf kappa anis Cl 0 _ hc, Qspec_mu]
  have lin : ∀ (u v w : Coords → SpCol) (a : ℂ), (∀ c ∈ box g.L, u c = v c + a • w c) →
      Qspec g anis (glob g conf) (1 / (2 * kappa)) (fun c => scMul (cloverBlock (glob g Cl c))) 0 u c =
      Qspec g anis (glob g conf) (1 / (2 * kappa)) (fun c => scMul (cloverBlock (glob g Cl c))) 0 v c +
      a • Qspec g anis (glob g conf) (1 / (2 * kappa)) (fun c => scMul (cloverBlock (glob g Cl c))) 0 w c := by
    intro u v w a h
    have hw : wilson g anis (glob g conf) u c = wilson g anis (glob g conf) v c + a • wilson g anis (glob g conf) w c := by
      unfold wilson
      rw [Finset.smul_sum, ← Finset.sum_add_distrib]
      refine Finset.sum_congr rfl fun mu _ => ?_
      rw [h _ (tshift_mem_box ok hc mu 1), h _ (tshift_mem_box ok hc mu (-1)), colMul_add, colMul_add, colMul_smul, colMul_smul, spinMul_add, spinMul_add,
        spinMul_smul, spinMul_smul, smul_comm a, ← smul_add]
      congr 1
      rw [smul_add]; abel
    have hs : ∀ (B : Fin 4 → Fin 4 → M3) (p q : SpCol), scMul B (p + a • q) = scMul B p + a • scMul B q := by
      intro B p q
      funext i
      simp only [scMul, Pi.add_apply, Pi.smul_apply, mulVec_add, mulVec_smul, Finset.sum_add_distrib, Finset.smul_sum]
    unfold Qspec
    rw [hw, h c hc]
    simp only [hs, spinMul_add, spinMul_sub, spinMul_smul, smul_add, smul_sub, Complex.ofReal_zero, zero_mul, zero_smul, add_zero]
    rw [smul_comm a, smul_comm a]
    abel
  have hq : ∀ y, ∀ c ∈ box g.L, glob g (apply_tmclovQ g ji jq jv conf kappa anis Cl m y) c =
        glob g (apply_tmclovQ g ji jq jv conf kappa anis Cl 0 y) c + ((m : ℂ) * I) • glob g y c := by
    intro y c hc
    rw [C40_tmclovQ ok ji jq jv conf kappa anis Cl m y hc, C40_tmclovQ ok ji jq jv conf kappa anis Cl 0 y hc, Qspec_mu]
  rw [lin _ _ _ _ (hq x), hq x c hc, ← C40_tmclovQ ok ji jq jv conf kappa anis Cl 0 x hc, smul_add, smul_smul]
  have e1 : ((-m : ℝ) : ℂ) * I * ((m : ℂ) * I) = (mu2 : ℂ) := by
    rw [← hmm]; push_cast
    linear_combination (-(m : ℂ) * m) * I_mul_I
  rw [e1]
  have e2 : (((-m : ℝ) : ℂ) * I) = -((m : ℂ) * I) := by push_cast; ring
  rw [e2, neg_smul]
  abel

/-- C40: `reconstruct_tmclov_doublet` returns the operators of both signs of the twisted mass applied to the input: having solved
`Q(mu)Q(-mu) x=b`, these are the solutions of the two flavours. -/
theorem C40_doublet (ji : Nat) (jq : Quad) (jv : SpCol) (conf : Nat → Nat → Quad) (kappa : ℝ) (anis : Option ℝ) (Cl : Nat → Nat → Clov)
    (mu : ℝ) (x : Nat → Nat → SpCol) {c : Coords} (hc : c ∈ box g.L) :
    glob g (reconstruct_tmclov_doublet g ji jq jv conf kappa anis Cl mu x).1 c = glob g (apply_tmclovQ g ji jq jv conf kappa anis Cl mu x) c ∧
    glob g (reconstruct_tmclov_doublet g ji jq jv conf kappa anis Cl mu x).2 c = glob g (apply_tmclovQ g ji jq jv conf kappa anis Cl (-mu) x) c := by
  refine ⟨rfl, ?_⟩
  have e : glob g (reconstruct_tmclov_doublet g ji jq jv conf kappa anis Cl mu x).2 c =
      glob g (apply_tmclovQ g ji jq jv conf kappa anis Cl mu x) c + (((-2 * mu : ℝ) : ℂ) * I) • glob g x c := rfl
  rw [e, C40_tmclovQ ok ji jq jv conf kappa anis Cl mu x hc, C40_tmclovQ ok ji jq jv conf kappa anis Cl (-mu) x hc, Qspec_mu,
    Qspec_mu g anis (glob g conf) _ _ (-mu), add_assoc, ← add_smul]
  congr 2
  push_cast; ring

/-- C40: gauge covariance of the hopping -/
theorem C40_wilson_covariant (anis : Option ℝ) (G : Coords → M3) (hG : AllUnitary g G) (U : Coords → Quad) (x : Coords → SpCol) {c : Coords}
    (hc : c ∈ box g.L) : wilson g anis (transformed g G U) (fun c => colMul (G c) (x c)) c = colMul (G c) (wilson g anis U x c) := by
  unfold wilson transformed
  rw [colMul_sum]
  refine Finset.sum_congr rfl fun mu _ => ?_
  have b1 := tshift_mem_box ok hc mu 1
  have b2 := tshift_mem_box ok hc mu (-1)
  rw [show tshift g (tshift g c mu (-1)) mu 1 = c from by
    have := Nissa.Paths.tshift_back ok hc mu (-1) (.inr rfl); rwa [neg_neg] at this]
  rw [colMul_smul, colMul_add, colMul_spinMul, colMul_spinMul, colMul_colMul, colMul_colMul, colMul_colMul, colMul_colMul]
  rw [conjTranspose_mul, conjTranspose_mul, conjTranspose_conjTranspose]
  rw [Matrix.mul_assoc (G c * U c mu), hG _ b1, Matrix.mul_one]
  rw [Matrix.mul_assoc (G c), Matrix.mul_assoc _ _ (G (tshift g c mu (-1))), hG _ b2, Matrix.mul_one]

end

/-- hypotheses are met by a non trivial clover term -/
example : ClHerm ![!![1, I, 0; -I, 2, 0; 0, 0, 3], !![1, 2, 3; 4, 5, I; 0, 0, 0], 1, !![0, 1, 0; 0, 0, 0; 0, 0, 0]] := by
  constructor
  · ext i j; fin_cases i <;> fin_cases j <;> simp [conjTranspose_apply]
  · simp

end Nissa.Wilson
