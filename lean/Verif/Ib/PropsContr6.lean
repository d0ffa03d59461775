import Verif.Ib.PropsContr5

/-! # C63: propagators are inverses of the operator -/

set_option linter.all false

namespace Nissa.Contr
open Nissa.Lx Nissa.Sten Nissa.Su3f Nissa.Gauge Nissa.Gamma Nissa.StD Nissa.Wilson Nissa.EoP Matrix Complex
open Nissa.Clv (As2t clover_term)

noncomputable section

theorem propRot_dopRot (r : Fin 2) : dense (dopRot r) * dense (propRot r) = 1 ∧ dense (propRot r) * dense (dopRot r) = 1 ∧ (dense (dopRot r))ᴴ = dense (propRot r) := by
  have t0 : tau3 0 = -1 := if_pos rfl
  have t1 : tau3 1 = 1 := if_neg (by decide)
  have hpm : dense pPlus * dense pMinus = 1 := C30_rotators.2.2.1
  have hmp : dense pMinus * dense pPlus = 1 := mul_eq_one_comm.1 hpm
  have hh : (dense pPlus)ᴴ = dense pMinus := C30_rotators.2.2.2
  have hh' : (dense pMinus)ᴴ = dense pPlus := by rw [← hh, conjTranspose_conjTranspose]
  unfold dopRot propRot
  fin_cases r
  · show dense (if tau3 0 = 1 then pMinus else pPlus) * dense (if tau3 0 = -1 then pMinus else pPlus) = 1 ∧ dense (if tau3 0 = -1 then pMinus else pPlus) * dense (if tau3 0 = 1 then pMinus else pPlus) = 1 ∧
      (dense (if tau3 0 = 1 then pMinus else pPlus))ᴴ = dense (if tau3 0 = -1 then pMinus else pPlus)
    rw [if_neg (by rw [t0]; norm_num), if_pos t0]
    exact ⟨hpm, hmp, hh⟩
  · show dense (if tau3 1 = 1 then pMinus else pPlus) * dense (if tau3 1 = -1 then pMinus else pPlus) = 1 ∧ dense (if tau3 1 = -1 then pMinus else pPlus) * dense (if tau3 1 = 1 then pMinus else pPlus) = 1 ∧
      (dense (if tau3 1 = 1 then pMinus else pPlus))ᴴ = dense (if tau3 1 = -1 then pMinus else pPlus)
    rw [if_pos t1, if_neg (by rw [t1]; norm_num)]
    exact ⟨hmp, hpm, hh'⟩

section
variable {g : Geo} (ok : g.Ok)
include ok

/-- the whole product by the operator, for twisted mass -/
theorem dop_twisted (ji : Nat) (jq : Quad) (jv : SpCol) (l0 : As2t) (clover_run : Bool) (cSW : ℝ) (conf : Nat → Nat → Quad) (kappa : ℝ) (anis : Option ℝ) (mass : ℝ) (r : Fin 2)
    (x : Nat → Nat → SpCol) {c : Coords} (hc : c ∈ box g.L) :
    glob g (mult_by_Dop true r (dopQ g ji jq jv l0 clover_run cSW conf kappa anis mass) x) c =
      spinMul (dense (dopRot r)) (Dspec g anis (glob g conf) (fun c => diagSpec (1 / (2 * kappa)) mass (clovTerm g ji jq l0 clover_run cSW conf c))
        (fun d => spinMul (dense (dopRot r)) (glob g x d)) c) := by
  unfold mult_by_Dop
  simp only [if_true]
  rw [C41_D_is_Q]
  have e : (fun d => spinMul (dense (dopRot r)) (glob g x d)) = glob g (fun rk ivol => diracSpinColor (dopRot r) (x rk ivol)) := by
    funext d; exact (diracSpinColor_eq _ _).symm
  rw [e, ← dopQ_eq ok ji jq jv l0 clover_run cSW conf kappa anis mass _ hc]
  show diracSpinColor _ (diracSpinColor _ _) = _
  rw [diracSpinColor_eq, diracSpinColor_eq]
  rfl

/-- **C63**.  For twisted mass the propagator returned by `get_qprop` solves the equation of the operator applied by `mult_by_Dop` with the same flavour, mass and configuration: the defect is the
rotated defect of the solution of the linear solver, so that it has the same norm site by site, and is zero where the solver is exact.  Any grid of ranks, configuration, clover coefficient,
anisotropy and solver. -/
theorem C63_prop_inverts {Cr : Type} (ji : Nat) (jq : Quad) (jv : SpCol) (l0 : As2t) (clover_run : Bool) (cSW : ℝ) (conf : Nat → Nat → Quad) (kappa : ℝ) (anis : Option ℝ) (mass : ℝ) (r : Fin 2)
    (solve : (Nat → Nat → SpCol) → Except Cr (Nat → Nat → SpCol)) (inp out : Nat → Nat → SpCol) (h : get_qprop true r solve inp = .ok out) :
    let src := fun rk ivol => spinMul (dense (propRot r)) (inp rk ivol)
    ∃ sol, solve src = .ok sol ∧
      let R := fun c => Dspec g anis (glob g conf) (fun c => diagSpec (1 / (2 * kappa)) mass (clovTerm g ji jq l0 clover_run cSW conf c)) (glob g sol) c - glob g src c
      let R' := fun c => glob g (mult_by_Dop true r (dopQ g ji jq jv l0 clover_run cSW conf kappa anis mass) out) c - glob g inp c
      ∀ c ∈ box g.L, ip (R' c) (R' c) = ip (R c) (R c) ∧ (R c = 0 → R' c = 0) := by
  intro src
  unfold get_qprop at h
  simp only [if_true] at h
  have hsrc : (fun rk ivol => diracSpinColor (propRot r) (inp rk ivol)) = src := by funext rk ivol; exact diracSpinColor_eq _ _
  rw [hsrc] at h
  cases hs : solve src with
  | error e => rw [hs] at h; cases h
  | ok sol =>
    rw [hs] at h
    cases h
    refine ⟨sol, rfl, ?_⟩
    intro R R' c hc
    obtain ⟨h1, h2, h3⟩ := propRot_dopRot r
    have hR : R' c = spinMul (dense (dopRot r)) (R c) := by
      show glob g (mult_by_Dop true r _ _) c - _ = spinMul _ (_ - _)
      rw [dop_twisted ok ji jq jv l0 clover_run cSW conf kappa anis mass r _ hc, spinMul_sub]
      congr 1
      · congr 2
        funext d
        show spinMul _ (diracSpinColor _ _) = _
        rw [diracSpinColor_eq, spinMul_mul, h1, spinMul_one]
        rfl
      · show _ = spinMul _ (spinMul _ _)
        rw [spinMul_mul, h1, spinMul_one]
        rfl
    rw [hR]
    refine ⟨?_, fun h => by rw [h]; exact spinMul_zero _⟩
    rw [ip_adj, spinMul_mul, h3, h2, spinMul_one]

/-- **C63**.  With the solver used without clover term, the residue of the propagator is the one asked, on the odd sites, and is zero on the even ones. -/
theorem C63_prop_converged (eo : EoOk g) (ji : Nat) (jq : Quad) (jv : SpCol) (l0 : As2t) (cSW : ℝ) (conf : Nat → Nat → Quad) (kappa : ℝ) (anis : Option ℝ) (mass : ℝ)
    (hk : 1 / (2 * kappa) ≠ 0 ∨ mass ≠ 0) (r : Fin 2) (residue : ℝ) (inp out : Nat → Nat → SpCol)
    (h : get_qprop true r (fun src => (inv_tmD_cg_eoprec g ji jq jv none conf kappa anis mass 1000000 residue src).map (·.1)) inp = .ok out) :
    let R := fun c => glob g (mult_by_Dop true r (dopQ g ji jq jv l0 false cSW conf kappa anis mass) out) c - glob g inp c
    (∀ c ∈ boxP g 0, R c = 0) ∧ ∃ sol varphi t, inv_tmD_cg_eoprec g ji jq jv none conf kappa anis mass 1000000 residue (fun rk ivol => spinMul (dense (propRot r)) (inp rk ivol)) = .ok (sol, varphi, t) ∧
      (dotS (box g.L) R R).re < residue * (dotS (boxP g 1) (globH g varphi) (globH g varphi)).re := by
  intro R
  obtain ⟨sol, h1, h2⟩ := C63_prop_inverts ok ji jq jv l0 false cSW conf kappa anis mass r _ inp out h
  cases hs : inv_tmD_cg_eoprec g ji jq jv none conf kappa anis mass 1000000 residue (fun rk ivol => spinMul (dense (propRot r)) (inp rk ivol)) with
  | error e => simp only [hs] at h1; cases h1
  | ok q =>
    obtain ⟨s, varphi, t⟩ := q
    simp only [hs] at h1
    cases h1
    obtain ⟨h3, h4⟩ := C41_inv_tmD_converged ok eo ji jq jv none conf kappa anis mass hk 1000000 (by norm_num) residue _ s varphi t hs
    have e : (fun c => diagSpec (1 / (2 * kappa)) mass (clovTerm g ji jq l0 false cSW conf c)) = fun _ : Coords => diagSpec (1 / (2 * kappa)) mass fun _ => 0 := by
      funext c; congr 1
    simp only [e] at h2
    refine ⟨fun c hc => (h2 c (mem_boxP.1 hc).1).2 (h3 c hc), s, varphi, t, rfl, ?_⟩
    refine lt_of_eq_of_lt ?_ h4
    congr 1
    unfold dotS
    refine Finset.sum_congr rfl fun c hc => ?_
    exact (h2 c hc).1

/-! ### The matrix on the source -/

/-- **C63**.  The routine of the local current takes the matrix on the source with the row on the forward propagator (`C63_vector_current`), the one of the conserved current with the row on the
backward one (`/repo/projects/ib/contr.cpp:904-946` and `975-1004`): for the time component with reversion, the matrix is antisymmetric, so that under the convention of the
local current the conserved one gets the opposite sign. -/
theorem C63_violated_source_gamma (ji : Nat) (jq : Quad) (jv : SpCol) (twisted : Bool) (n : Nat) (conf : Nat → Nat → Quad) (r : Fin 2) (Qbw Qfw : QProp) {c : Coords} (hc : c ∈ box g.L)
    (mu : Dir) :
    glob g (vector_current_mel 4 n (baseGamma 4) true Qbw Qfw) c mu =
      ∑ i : Fin 4, ∑ b : Fin n, ∑ j : Fin 4, (Γ 4 * Γ 5) i j *
        jloc mu (fun d => rev true (glob g (Qbw (so_sp_col_ind n j b)) d)) (glob g (Qfw (so_sp_col_ind n i b))) c ∧
    glob g (conserved_vector_current_mel g ji jq jv twisted 4 n conf (baseGamma 4) r true Qbw Qfw) c mu =
      - ∑ i : Fin 4, ∑ b : Fin n, ∑ j : Fin 4, (Γ 4 * Γ 5) i j *
        jcons g (glob g conf) (wilsonMat twisted r) mu (fun d => rev true (glob g (Qbw (so_sp_col_ind n j b)) d)) (glob g (Qfw (so_sp_col_ind n i b))) c := by
  have hs : soIdx 4 = Finset.univ := by unfold soIdx; exact Finset.filter_true_of_mem fun j _ => j.isLt
  constructor
  · rw [C63_vector_current ok 4 n (.inl rfl) 4 true, hs]
    simp only [if_true]
  · rw [C63_conserved_current ok ji jq jv twisted 4 n (.inl rfl) conf 4 r true Qbw Qfw hc mu, hs]
    simp only [if_true]
    have anti : ∀ i j, (Γ 4 * Γ 5) j i = -(Γ 4 * Γ 5) i j := by
      have h4 : Γ 4 = γdir 0 := rfl
      rw [h4, Wilson.g0, Wilson.g5]
      intro i j
      fin_cases i <;> fin_cases j <;> simp [Matrix.mul_apply, Fin.sum_univ_four]
    rw [Finset.sum_congr rfl fun j _ => Finset.sum_comm, Finset.sum_comm, ← Finset.sum_neg_distrib]
    refine Finset.sum_congr rfl fun i _ => ?_
    rw [Finset.sum_comm, ← Finset.sum_neg_distrib]
    refine Finset.sum_congr rfl fun b _ => ?_
    rw [← Finset.sum_neg_distrib]
    refine Finset.sum_congr rfl fun j _ => ?_
    rw [anti i j, neg_mul]

/-! ### Without twisted mass -/

/-- the operator on a constant field of the trivial configuration -/
theorem dop_const (ji : Nat) (jq : Quad) (jv : SpCol) (l0 : As2t) (cSW kappa : ℝ) (v : SpCol) {c : Coords} (hc : c ∈ box g.L) :
    glob g (mult_by_Dop false 0 (dopQ g ji jq jv l0 false cSW (fun _ _ _ => 1) kappa none 0) fun _ _ => v) c = (((1 / (2 * kappa) : ℝ) : ℂ) - 4) • v := by
  rw [dop_eq false 0 (glob g fun _ _ _ => 1) (1 / (2 * kappa)) 0 (clovTerm g ji jq l0 false cSW (fun _ _ _ => 1)) _
    (fun x c hc => dopQ_eq ok ji jq jv l0 false cSW _ kappa none 0 x hc) _ hc]
  have hg : ∀ d, glob g (fun _ _ => v) d = v := fun _ => rfl
  have hU : ∀ (d : Coords) (nu : Dir), glob g (fun _ _ (_ : Dir) => (1 : M3)) d nu = 1 := fun _ _ => rfl
  have h1 : ∀ w : SpCol, colMul 1 w = w := fun w => by funext i; simp [colMul]
  simp only [hg, hU, conjTranspose_one, h1]
  have hs : ∀ nu : Dir, spinMul (wilsonMat false 0 - γdir nu) v + spinMul (wilsonMat false 0 + γdir nu) v = (2 : ℂ) • v := by
    intro nu
    have : ∀ A B : M4, spinMul A v + spinMul B v = spinMul (A + B) v := by
      intro A B; funext i
      simp only [Pi.add_apply, spinMul, Matrix.add_apply, add_smul, Finset.sum_add_distrib]
    rw [this, show wilsonMat false 0 - γdir nu + (wilsonMat false 0 + γdir nu) = (2 : ℂ) • (1 : M4) by unfold wilsonMat; rw [if_neg (by decide)]; module]
    funext i
    simp [spinMul, Matrix.smul_apply, Matrix.one_apply, ite_smul]
  rw [Finset.sum_congr rfl fun nu _ => hs nu, Finset.sum_const, Finset.card_univ]
  have hw : spinMul (((1 / (2 * kappa) : ℝ) : ℂ) • wilsonMat false 0 + (((0 : ℝ) : ℂ) * I) • (Γ 5 * wilsonMat false 0)) v = ((1 / (2 * kappa) : ℝ) : ℂ) • v := by
    unfold wilsonMat
    rw [if_neg (by decide), Complex.ofReal_zero, zero_mul, zero_smul, add_zero]
    funext i
    simp [spinMul, Matrix.smul_apply, Matrix.one_apply, ite_smul]
  have hz : clovTerm g ji jq l0 false cSW (fun _ _ _ => 1) c (spinMul (rotMat false 0) v) = 0 := rfl
  rw [hw, hz, spinMul_zero, add_zero, show Fintype.card Dir = 4 from rfl, ← Nat.cast_smul_eq_nsmul ℂ 4]
  funext i a
  simp only [Pi.sub_apply, Pi.smul_apply, smul_eq_mul]
  push_cast
  ring

/-- **C63**.  Without twisted mass the sink is rotated all the same (`/repo/projects/ib/prop.cpp:102-111` is not under `if(twisted_run>0)` as the source is): on the trivial configuration, with a constant
source and a solver returning the exact solution, the field returned does not solve the equation at any site. -/
theorem C63_violated_untwisted_sink {Cr : Type} (ji : Nat) (jq : Quad) (jv : SpCol) (l0 : As2t) (cSW kappa : ℝ) (hk : 1 / (2 * kappa) ≠ 4) (v : SpCol) (hv : v ≠ 0)
    (solve : (Nat → Nat → SpCol) → Except Cr (Nat → Nat → SpCol)) (hsol : solve (fun _ _ => (((1 / (2 * kappa) : ℝ) : ℂ) - 4) • v) = .ok fun _ _ => v) :
    let D := fun x => glob g (mult_by_Dop false 0 (dopQ g ji jq jv l0 false cSW (fun _ _ _ => 1) kappa none 0) x)
    let inp : Nat → Nat → SpCol := fun _ _ => (((1 / (2 * kappa) : ℝ) : ℂ) - 4) • v
    (∀ c ∈ box g.L, D (fun _ _ => v) c = glob g inp c) ∧
    ∃ out, get_qprop false 0 solve inp = .ok out ∧ ∀ c ∈ box g.L, D out c ≠ glob g inp c := by
  intro D inp
  refine ⟨fun c hc => dop_const ok ji jq jv l0 cSW kappa v hc, fun _ _ => spinMul (dense (propRot 0)) v, ?_, ?_⟩
  · unfold get_qprop
    simp only [Bool.false_eq_true, if_false]
    rw [hsol]
    show Except.ok _ = _
    congr 1
    funext rk ivol
    exact diracSpinColor_eq _ _
  · intro c hc h
    rw [show D (fun _ _ => spinMul (dense (propRot 0)) v) c = _ from dop_const ok ji jq jv l0 cSW kappa _ hc] at h
    have hk' : ((1 / (2 * kappa) : ℝ) : ℂ) - 4 ≠ 0 := by
      intro h; apply hk
      have := sub_eq_zero.1 h
      exact_mod_cast this
    have h2 : spinMul (dense (propRot 0)) v = v := smul_right_injective _ hk' h
    have h3 : dense (propRot 0) = ((1 / √2 : ℝ) : ℂ) • (1 - I • Γ 5) := by
      have t0 : tau3 0 = -1 := if_pos rfl
      unfold propRot; rw [if_pos t0]; exact C30_rotators.2.1
    apply hv
    funext i
    have h4 := congrFun h2 i
    rw [h3] at h4
    have h5 : Γ 5 = !![1,0,0,0;0,1,0,0;0,0,-1,0;0,0,0,-1] := Wilson.g5
    have key : ∀ s : ℂ, (s = 1 ∨ s = -1) → ((1 / √2 : ℝ) : ℂ) * (1 - I * s) ≠ 1 := by
      intro s hs h
      have := congrArg Complex.im h
      have h6 : (√2 : ℝ) ≠ 0 := by positivity
      rcases hs with rfl | rfl
      · simp at this
      · simp at this
    have h6 : ∃ s : ℂ, (s = 1 ∨ s = -1) ∧ v i = (((1 / √2 : ℝ) : ℂ) * (1 - I * s)) • v i := by
      fin_cases i
      · exact ⟨1, .inl rfl, h4.symm.trans (by simp [spinMul, h5, Fin.sum_univ_four, Matrix.smul_apply, Matrix.sub_apply])⟩
      · exact ⟨1, .inl rfl, h4.symm.trans (by simp [spinMul, h5, Fin.sum_univ_four, Matrix.smul_apply, Matrix.sub_apply])⟩
      · exact ⟨-1, .inr rfl, h4.symm.trans (by simp [spinMul, h5, Fin.sum_univ_four, Matrix.smul_apply, Matrix.sub_apply])⟩
      · exact ⟨-1, .inr rfl, h4.symm.trans (by simp [spinMul, h5, Fin.sum_univ_four, Matrix.smul_apply, Matrix.sub_apply])⟩
    obtain ⟨s, hs, h7⟩ := h6
    have h8 : (1 - ((1 / √2 : ℝ) : ℂ) * (1 - I * s)) • v i = 0 := by rw [sub_smul, one_smul, ← h7, sub_self]
    rcases smul_eq_zero.1 h8 with h9 | h9
    · exact absurd (sub_eq_zero.1 h9).symm (key s hs)
    · exact h9

end

/-! ### Cases -/

/-- a lattice on eight ranks: the hypotheses of the theorems on currents and propagators are met -/
example (v : SpCol) (hv : v ≠ 0) : let g : Geo := ⟨![8, 4, 4, 8], ![2, 1, 2, 2]⟩
    g.Ok ∧ EoOk g ∧ ![7, 3, 3, 7] ∈ box g.L ∧ (∃ out, get_qprop (Cr := Unit) true 1 (fun x => .ok fun rk i => (1 / 1000 : ℂ) • x rk i) (fun _ _ => v) = .ok out) ∧
    (1 / (2 * (1 / 6)) : ℝ) ≠ 4 ∧ ∃ solve : (Nat → Nat → SpCol) → Except Unit (Nat → Nat → SpCol), solve (fun _ _ => (((1 / (2 * (1 / 6)) : ℝ) : ℂ) - 4) • v) = .ok fun _ _ => v := by
  intro g
  refine ⟨by decide, by decide, mem_box.2 (by decide), ⟨_, rfl⟩, by norm_num, fun _ => .ok fun _ _ => v, rfl⟩

/-- the solver of the program returns: a source, rotated, on the odd sites only -/
example (anis : Option ℝ) (conf : Nat → Nat → Quad) (src : Nat → Nat → SpCol) (sol : (Nat → Nat → SpCol) × HFld × HFld) (g : Geo)
    (h : inv_tmD_cg_eoprec g 0 0 0 none conf (1 / 8) anis (1 / 100) 1000000 (1 / 10 ^ 20) src = .ok sol) :
    ∃ out, get_qprop true 1 (fun x => (inv_tmD_cg_eoprec g 0 0 0 none conf (1 / 8) anis (1 / 100) 1000000 (1 / 10 ^ 20) x).map (·.1))
      (fun rk i => spinMul (dense (dopRot 1)) (src rk i)) = .ok out := by
  unfold get_qprop
  simp only [if_true]
  have e : (fun rk ivol => diracSpinColor (propRot 1) (spinMul (dense (dopRot 1)) (src rk ivol))) = src := by
    funext rk i
    rw [diracSpinColor_eq, spinMul_mul, (propRot_dopRot 1).2.1, spinMul_one]
  rw [e, h]
  exact ⟨_, rfl⟩

end

end Nissa.Contr
