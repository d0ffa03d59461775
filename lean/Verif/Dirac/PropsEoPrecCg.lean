import Verif.Dirac.EoPrecCg
import Mathlib.LinearAlgebra.FiniteDimensional.Basic

/-! # C41: the preconditioned inverters solve the full system -/

set_option linter.all false

namespace Nissa.EoP
open Nissa.Lx Nissa.Sten Nissa.Su3f Nissa.Gauge Nissa.Gamma Nissa.StD Nissa.Wilson Nissa.Cg Matrix Complex

theorem diag_lin (k mu : ℝ) (C : SpCol → SpCol) (hC : ∀ (a : ℂ) u v, C (u + a • v) = C u + a • C v) (a : ℂ) (u v : SpCol) :
    diagSpec k mu C (u + a • v) = diagSpec k mu C u + a • diagSpec k mu C v := by
  unfold diagSpec
  rw [hC, spinMul_add, spinMul_smul]
  simp only [smul_add, smul_smul]
  rw [mul_comm (k : ℂ) a, mul_comm ((mu : ℂ) * I) a]
  abel

theorem scMul_lin (B : Fin 4 → Fin 4 → M3) (a : ℂ) (u v : SpCol) : scMul B (u + a • v) = scMul B u + a • scMul B v := by
  unfold scMul
  funext i
  simp only [Pi.add_apply, Pi.smul_apply, mulVec_add, mulVec_smul, Finset.sum_add_distrib, Finset.smul_sum]

/-- C41: the operator inverted is the one of C40: `Dspec = gamma5 Q` -/
theorem C41_D_is_Q (g : Geo) (anis : Option ℝ) (U : Coords → Quad) (k mu : ℝ) (C : Coords → SpCol → SpCol) (x : Coords → SpCol) (c : Coords) :
    Dspec g anis U (fun c => diagSpec k mu (C c)) x c = spinMul (Γ 5) (Qspec g anis U k C mu x c) := by
  unfold Dspec Qspec diagSpec
  rw [spinMul_add, g5_g5, spinMul_smul]
  generalize (1 / 2 : ℂ) • wilson g anis U x c = w
  beta_reduce
  abel

section
variable {g : Geo} (ok : g.Ok) (eo : EoOk g)
include ok eo

theorem tm_square_lin (ji : Nat) (jq : Quad) (jv : SpCol) (conf : Nat → Nat → Nat → Quad) (kappa : ℝ) (anis : Option ℝ) (mu : ℝ) :
    (∀ x y : HFld, ∀ c ∈ boxP g 1, globH g (tmDkern_square g ji jq jv conf kappa anis mu fun rk e => x rk e + y rk e) c =
      globH g (tmDkern_square g ji jq jv conf kappa anis mu x) c + globH g (tmDkern_square g ji jq jv conf kappa anis mu y) c) ∧
    ∀ (s : ℂ) (x : HFld), ∀ c ∈ boxP g 1, globH g (tmDkern_square g ji jq jv conf kappa anis mu fun rk e => s • x rk e) c =
      s • globH g (tmDkern_square g ji jq jv conf kappa anis mu x) c :=
  square_lin ok eo anis (globEo g conf) (fun _ => diagSpec (1 / (2 * kappa)) mu fun _ => 0) (fun _ => invDiag kappa mu)
    (fun _ => diagSpec (1 / (2 * kappa)) (-mu) fun _ => 0) (fun _ => invDiag kappa (-mu)) (fun _ => diag_lin _ _ _ (by simp)) (fun _ => invDiag_lin _ _)
    (fun _ => diag_lin _ _ _ (by simp)) (fun _ => invDiag_lin _ _) (tmDkern g ji jq jv conf kappa anis mu) (tmDkern g ji jq jv conf kappa anis (-mu))
    (fun x c hc => C41_tmDkern ok eo ji jq jv conf kappa anis mu x hc) (fun x c hc => C41_tmDkern ok eo ji jq jv conf kappa anis (-mu) x hc)

theorem clov_square_lin (ji : Nat) (jq : Quad) (jv : SpCol) (conf : Nat → Nat → Nat → Quad) (kappa : ℝ) (anis : Option ℝ) (Cl : Nat → Nat → Clov)
    (ic : Nat → Nat → InvClov) (mu : ℝ) :
    (∀ x y : HFld, ∀ c ∈ boxP g 1, globH g (tmclovDkern_square g ji jq jv conf kappa anis Cl ic mu fun rk e => x rk e + y rk e) c =
      globH g (tmclovDkern_square g ji jq jv conf kappa anis Cl ic mu x) c + globH g (tmclovDkern_square g ji jq jv conf kappa anis Cl ic mu y) c) ∧
    ∀ (s : ℂ) (x : HFld), ∀ c ∈ boxP g 1, globH g (tmclovDkern_square g ji jq jv conf kappa anis Cl ic mu fun rk e => s • x rk e) c =
      s • globH g (tmclovDkern_square g ji jq jv conf kappa anis Cl ic mu x) c :=
  square_lin ok eo anis (globEo g conf) _ _ _ _ (fun _ => diag_lin _ _ _ (scMul_lin _)) (fun _ => invCl_lin _ _)
    (fun _ => diag_lin _ _ _ (scMul_lin _)) (fun _ => invCl_lin _ _) (tmclovDkern g ji jq jv conf kappa anis Cl ic false mu) (tmclovDkern g ji jq jv conf kappa anis Cl ic true mu)
    (fun x c hc => C41_tmclovDkern ok eo ji jq jv conf kappa anis Cl ic false mu x hc) (fun x c hc => C41_tmclovDkern ok eo ji jq jv conf kappa anis Cl ic true mu x hc)

theorem residue_parities (R : Coords → SpCol) (r : Coords → SpCol) (h0 : ∀ c ∈ boxP g 0, R c = 0) (h1 : ∀ c ∈ boxP g 1, R c = - spinMul (Γ 5) (r c)) :
    dotS (box g.L) R R = dotS (boxP g 1) r r := by
  rw [dotS_parities, dotS_sub_self (boxP g 1) R r h1]
  have : dotS (boxP g 0) R R = 0 := by
    rw [dotS_eq]
    exact Finset.sum_eq_zero fun c hc => by rw [h0 c hc]; simp [ip]
  rw [this, zero_add]

/-- C41: if the twisted mass inverter with preconditioning returns, the solution satisfies the full system with norm squared of the residue smaller than the
requested one, relative to the preconditioned source; on the even sites it is exact. -/
theorem C41_inv_tmD_converged (ji : Nat) (jq : Quad) (jv : SpCol) (guess : Option HFld) (conf : Nat → Nat → Quad) (kappa : ℝ) (anis : Option ℝ) (mass : ℝ)
    (hk : 1 / (2 * kappa) ≠ 0 ∨ mass ≠ 0) (niter : Nat) (hn : 0 < niter) (residue : ℝ) (source sol : Nat → Nat → SpCol) (varphi t : HFld)
    (h : inv_tmD_cg_eoprec g ji jq jv guess conf kappa anis mass niter residue source = .ok (sol, varphi, t)) :
    let D := Dspec g anis (glob g conf) (fun _ => diagSpec (1 / (2 * kappa)) mass fun _ => 0)
    let R := fun c => D (glob g sol) c - glob g source c
    (∀ c ∈ boxP g 0, R c = 0) ∧ (dotS (box g.L) R R).re < residue * (dotS (boxP g 1) (globH g varphi) (globH g varphi)).re := by
  intro D R
  obtain ⟨h1, h2, h3⟩ := C41_inv_tmD_residue ok eo ji jq jv _ conf kappa anis mass hk source sol varphi t h
  have h0 : ∀ c ∈ boxP g 0, R c = 0 := fun c hc => sub_eq_zero.2 (h2 c hc)
  refine ⟨h0, ?_⟩
  have lin := tm_square_lin ok eo ji jq jv (splitFld g jq conf) kappa anis mass
  rw [residue_parities ok eo R _ h0 h3]
  exact cgHalf_converged ok eo 1 _ lin.1 lin.2 guess niter hn residue varphi t h1

/-- C41: and it returns, for any nonvanishing twisted mass, allowing more iterations than the real dimension of the odd system, unless the preconditioned
source vanishes (in which case `cg_invert` aborts). -/
theorem C41_inv_tmD_returns (ji : Nat) (jq : Quad) (jv : SpCol) (conf : Nat → Nat → Quad) (kappa : ℝ) (anis : Option ℝ) (mass : ℝ)
    (hm : mass ≠ 0) (niter : Nat) (hn : 24 * (boxP g 1).card < niter) (residue : ℝ) (hr : 0 < residue) (source : Nat → Nat → SpCol)
    (hs : ∃ c ∈ boxP g 1, glob g source c + (1 / 2 : ℂ) • wilson g anis (glob g conf) (fun d => invDiag kappa mass (glob g source d)) c ≠ 0) :
    ∃ out, inv_tmD_cg_eoprec g ji jq jv none conf kappa anis mass niter residue source = .ok out := by
  have lin := tm_square_lin ok eo ji jq jv (splitFld g jq conf) kappa anis mass
  have hform := fun y x => C41_tmDkern_square_form ok eo ji jq jv (splitFld g jq conf) kappa anis mass y x
  have hsymm : ∀ x y : HFld, dotS (boxP g 1) (globH g (tmDkern_square g ji jq jv (splitFld g jq conf) kappa anis mass x)) (globH g y) =
      dotS (boxP g 1) (globH g x) (globH g (tmDkern_square g ji jq jv (splitFld g jq conf) kappa anis mass y)) := by
    intro x y
    have st : ∀ u v : Coords → SpCol, star (dotS (boxP g 1) u v) = dotS (boxP g 1) v u := by
      intro u v; rw [dotS_eq, dotS_eq, star_sum]; exact Finset.sum_congr rfl fun c _ => ip_star _ _
    rw [← st, hform y x, st, hform]
  obtain ⟨t, ht⟩ := cgHalf_terminates ok eo 1 _ lin.1 lin.2 hsymm (fun x hx => by
    rw [hsymm, hform]
    have h := dotS_self (boxP g 1) (globH g (tmDkern g ji jq jv (splitFld g jq conf) kappa anis (-mass) x))
    rcases h.2.1.lt_or_eq with h' | h'
    · exact h'
    · exfalso
      obtain ⟨c, hc, hne⟩ := hx
      have z := h.2.2 (Complex.ext h'.symm h.1)
      refine hne (Kspec_inj ok eo anis (globEo g (splitFld g jq conf)) (1 / (2 * kappa)) (-mass) (neg_ne_zero.2 hm) (fun _ _ => 0)
        (fun c _ y x => by simp [spinMul_zero, ip]) (fun _ => invDiag kappa (-mass)) (fun _ => invDiag_lin _ _) (fun c _ v => ?_) (globH g x) (fun c hc => ?_) c hc)
      · have := congrFun (congrFun (C41_inv_tmDee kappa (-mass) (.inr (neg_ne_zero.2 hm)) (fun _ _ => v)).2 0) 0
        rw [dee_eq] at this
        exact this
      · rw [← C41_tmDkern ok eo ji jq jv _ kappa anis (-mass) x hc]
        exact z c hc) niter hn residue hr
      (prepare_source g ji jq jv (splitFld g jq conf) anis (inv_tmDee kappa mass fun rk e => splitFld g jv source rk 0 e) fun rk e => splitFld g jv source rk 1 e) (by
    obtain ⟨c, hc, hne⟩ := hs
    refine ⟨c, hc, fun h0 => hne ?_⟩
    have h0 := congrArg (spinMul (Γ 5)) h0
    rw [varphi_eq ok eo ji jq jv _ anis _ _ hc, g5_g5, spinMul_zero, wilson_split ok eo anis jq conf _ (mem_boxP.1 hc).1] at h0
    rw [← h0, globH_of_eo ok eo (splitFld g jv source) hc, glob_split ok eo jv source (mem_boxP.1 hc).1]
    have : wilson g anis (glob g conf) (fun d => invDiag kappa mass (glob g source d)) c =
        wilson g anis (glob g conf) (globH g (inv_tmDee kappa mass fun rk e => splitFld g jv source rk 0 e)) c := by
      refine wilson_congr fun mu => ?_
      have go : ∀ y ∈ boxP g 0, invDiag kappa mass (glob g source y) = globH g (inv_tmDee kappa mass fun rk e => splitFld g jv source rk 0 e) y := by
        intro y hy
        rw [← glob_split ok eo jv source (mem_boxP.1 hy).1, ← globH_of_eo ok eo (splitFld g jv source) hy]; rfl
      exact ⟨go _ (tshift_mem_boxP ok eo hc mu (.inl rfl)), go _ (tshift_mem_boxP ok eo hc mu (.inr rfl))⟩
    rw [this])
  unfold inv_tmD_cg_eoprec inv_tmD_native
  simp only
  rw [ht]
  exact ⟨_, rfl⟩

/-- C41: with the clover term, for an exact inverse on the even sites -/
theorem C41_inv_tmclovD_converged (ji : Nat) (jq : Quad) (jv : SpCol) (jc : Clov) (jic : InvClov) (guess : Option HFld) (conf : Nat → Nat → Quad) (kappa : ℝ)
    (anis : Option ℝ) (Cl : Nat → Nat → Clov) (invCl : Nat → Nat → InvClov) (mass : ℝ) (niter : Nat) (hn : 0 < niter) (residue : ℝ)
    (hinv : ∀ c ∈ boxP g 0, ∀ v, diagSpec (1 / (2 * kappa)) mass (scMul (cloverBlock (glob g Cl c))) (invClSpec false (glob g invCl c) v) = v)
    (source sol : Nat → Nat → SpCol) (varphi t : HFld)
    (h : inv_tmclovD_cg_eoprec g ji jq jv jc jic guess conf kappa anis Cl invCl mass niter residue source = .ok (sol, varphi, t)) :
    let D := Dspec g anis (glob g conf) (fun c => diagSpec (1 / (2 * kappa)) mass (scMul (cloverBlock (glob g Cl c))))
    let R := fun c => D (glob g sol) c - glob g source c
    (∀ c ∈ boxP g 0, R c = 0) ∧ (dotS (box g.L) R R).re < residue * (dotS (boxP g 1) (globH g varphi) (globH g varphi)).re := by
  intro D R
  obtain ⟨h1, h2, h3⟩ := C41_inv_tmclovD_residue ok eo ji jq jv jc jic _ conf kappa anis Cl invCl mass source sol varphi t h
  have h0 : ∀ c ∈ boxP g 0, R c = 0 := fun c hc => by
    have := h2 c hc
    beta_reduce at this
    rw [hinv c hc, sub_self] at this
    exact this
  refine ⟨h0, ?_⟩
  have lin := clov_square_lin ok eo ji jq jv (splitFld g jq conf) kappa anis (partFld g jc Cl 1) (partFld g jic invCl 0) mass
  rw [residue_parities ok eo R _ h0 h3]
  exact cgHalf_converged ok eo 1 _ lin.1 lin.2 guess niter hn residue varphi t h1

omit ok eo in
theorem ip_nondeg {a b : SpCol} (h : ∀ v, ip a v = ip b v) : a = b := by
  funext i k
  have := h (Pi.single i (Pi.single k 1))
  simp only [ip, Finset.sum_apply] at this
  rw [Finset.sum_eq_single i, Finset.sum_eq_single i] at this
  · exact star_injective (by simpa using this)
  · intro j _ hj; simp [Pi.single_apply, hj]
  · intro h; simp at h
  · intro j _ hj; simp [Pi.single_apply, hj]
  · intro h; simp at h

omit ok eo in
/-- a right inverse of the diagonal term gives one of the adjoint -/
theorem inv_adjoint (k mu : ℝ) (Cl : Clov) (hCl : ClHerm Cl) (b : InvClov)
    (h : ∀ v, diagSpec k mu (scMul (cloverBlock Cl)) (invClSpec false b v) = v) (v : SpCol) :
    diagSpec k (-mu) (scMul (cloverBlock Cl)) (invClSpec true b v) = v := by
  let A : SpCol →ₗ[ℂ] SpCol :=
    { toFun := diagSpec k mu (scMul (cloverBlock Cl))
      map_add' := fun u w => by have := diag_lin k mu _ (scMul_lin (cloverBlock Cl)) 1 u w; simpa using this
      map_smul' := fun a u => by
        have h0 : diagSpec k mu (scMul (cloverBlock Cl)) 0 = 0 := by
          have := diag_lin k mu _ (scMul_lin (cloverBlock Cl)) (-1) 0 0
          simpa using this
        have := diag_lin k mu _ (scMul_lin (cloverBlock Cl)) a 0 u
        simpa [h0] using this }
  let B : SpCol →ₗ[ℂ] SpCol :=
    { toFun := invClSpec false b
      map_add' := fun u w => by have := invCl_lin false b 1 u w; simpa using this
      map_smul' := fun a u => by
        have h0 : invClSpec false b 0 = 0 := by
          have := invCl_lin false b (-1) 0 0
          simpa using this
        have := invCl_lin false b a 0 u
        simpa [h0] using this }
  have hAB : A * B = 1 := LinearMap.ext h
  have hBA : B * A = 1 := mul_eq_one_comm.1 hAB
  have h' : ∀ v, invClSpec false b (diagSpec k mu (scMul (cloverBlock Cl)) v) = v := fun v => LinearMap.congr_fun hBA v
  have key : ∀ u w, ip (spinMul (Γ 5) (diagSpec k (-mu) (scMul (cloverBlock Cl)) (invClSpec true b u))) w = ip (spinMul (Γ 5) u) w := by
    intro u w
    rw [← diag_adjoint k mu _ (clover_hermitian hCl), ip_spin, g5herm]
    have := invCl_adjoint false b u (diagSpec k mu (scMul (cloverBlock Cl)) w)
    rw [h'] at this
    simp only [Bool.not_false] at this
    rw [← this, ip_spin, g5herm]
  have := congrArg (spinMul (Γ 5)) (ip_nondeg (key v))
  rwa [g5_g5, g5_g5] at this

/-- C41: with the clover term, for a hermitian clover term and an exact inverse on the even sites, the inverter returns, for any nonvanishing mass -/
theorem C41_inv_tmclovD_returns (ji : Nat) (jq : Quad) (jv : SpCol) (jc : Clov) (jic : InvClov) (conf : Nat → Nat → Quad) (kappa : ℝ)
    (anis : Option ℝ) (Cl : Nat → Nat → Clov) (hCl : ∀ c ∈ box g.L, ClHerm (glob g Cl c)) (invCl : Nat → Nat → InvClov) (mass : ℝ) (hm : mass ≠ 0)
    (hinv : ∀ c ∈ boxP g 0, ∀ v, diagSpec (1 / (2 * kappa)) mass (scMul (cloverBlock (glob g Cl c))) (invClSpec false (glob g invCl c) v) = v)
    (niter : Nat) (hn : 24 * (boxP g 1).card < niter) (residue : ℝ) (hr : 0 < residue) (source : Nat → Nat → SpCol)
    (hs : ∃ c ∈ boxP g 1, glob g source c + (1 / 2 : ℂ) • wilson g anis (glob g conf) (fun d => invClSpec false (glob g invCl d) (glob g source d)) c ≠ 0) :
    ∃ out, inv_tmclovD_cg_eoprec g ji jq jv jc jic none conf kappa anis Cl invCl mass niter residue source = .ok out := by
  have lin := clov_square_lin ok eo ji jq jv (splitFld g jq conf) kappa anis (partFld g jc Cl 1) (partFld g jic invCl 0) mass
  have hCo : ∀ c ∈ boxP g 1, ClHerm (globH g (partFld g jc Cl 1) c) := fun c hc => by
    rw [glob_part ok eo jc Cl hc]; exact hCl c (mem_boxP.1 hc).1
  have hform := fun y x => C41_tmclovDkern_square_form ok eo ji jq jv (splitFld g jq conf) kappa anis (partFld g jc Cl 1) hCo (partFld g jic invCl 0) mass y x
  have hsymm : ∀ x y : HFld, dotS (boxP g 1) (globH g (tmclovDkern_square g ji jq jv (splitFld g jq conf) kappa anis (partFld g jc Cl 1) (partFld g jic invCl 0) mass x)) (globH g y) =
      dotS (boxP g 1) (globH g x) (globH g (tmclovDkern_square g ji jq jv (splitFld g jq conf) kappa anis (partFld g jc Cl 1) (partFld g jic invCl 0) mass y)) := by
    intro x y
    have st : ∀ u v : Coords → SpCol, star (dotS (boxP g 1) u v) = dotS (boxP g 1) v u := by
      intro u v; rw [dotS_eq, dotS_eq, star_sum]; exact Finset.sum_congr rfl fun c _ => ip_star _ _
    rw [← st, hform y x, st, hform]
  obtain ⟨t, ht⟩ := cgHalf_terminates ok eo 1 _ lin.1 lin.2 hsymm (fun x hx => by
    rw [hsymm, hform]
    have h := dotS_self (boxP g 1) (globH g (tmclovDkern g ji jq jv (splitFld g jq conf) kappa anis (partFld g jc Cl 1) (partFld g jic invCl 0) true mass x))
    rcases h.2.1.lt_or_eq with h' | h'
    · exact h'
    · exfalso
      obtain ⟨c, hc, hne⟩ := hx
      have z := h.2.2 (Complex.ext h'.symm h.1)
      refine hne (Kspec_inj ok eo anis (globEo g (splitFld g jq conf)) (1 / (2 * kappa)) (-mass) (neg_ne_zero.2 hm) (fun c => scMul (cloverBlock (glob g Cl c)))
        (fun c hc y x => clover_hermitian (hCl c hc) y x) (fun c => invClSpec true (glob g invCl c)) (fun _ => invCl_lin _ _)
        (fun c hc v => inv_adjoint _ _ _ (hCl c (mem_boxP.1 hc).1) _ (hinv c hc) v) (globH g x) (fun c hc => ?_) c hc)
      rw [← z c hc, C41_tmclovDkern ok eo ji jq jv _ kappa anis _ _ true mass x hc]
      refine Kspec_congr (by rw [glob_part ok eo jc Cl hc]; rfl) fun mu => ?_
      constructor
      · beta_reduce; rw [glob_part ok eo jic invCl (tshift_mem_boxP ok eo hc mu (.inl rfl))]
      · beta_reduce; rw [glob_part ok eo jic invCl (tshift_mem_boxP ok eo hc mu (.inr rfl))]) niter hn residue hr
      (prepare_source g ji jq jv (splitFld g jq conf) anis (inv_tmclovDee (partFld g jic invCl 0) false fun rk e => splitFld g jv source rk 0 e) fun rk e => splitFld g jv source rk 1 e) (by
    obtain ⟨c, hc, hne⟩ := hs
    refine ⟨c, hc, fun h0 => hne ?_⟩
    have h0 := congrArg (spinMul (Γ 5)) h0
    rw [varphi_eq ok eo ji jq jv _ anis _ _ hc, g5_g5, spinMul_zero, wilson_split ok eo anis jq conf _ (mem_boxP.1 hc).1] at h0
    rw [← h0, globH_of_eo ok eo (splitFld g jv source) hc, glob_split ok eo jv source (mem_boxP.1 hc).1]
    have : wilson g anis (glob g conf) (fun d => invClSpec false (glob g invCl d) (glob g source d)) c =
        wilson g anis (glob g conf) (globH g (inv_tmclovDee (partFld g jic invCl 0) false fun rk e => splitFld g jv source rk 0 e)) c := by
      refine wilson_congr fun mu => ?_
      have go : ∀ y ∈ boxP g 0, invClSpec false (glob g invCl y) (glob g source y) = globH g (inv_tmclovDee (partFld g jic invCl 0) false fun rk e => splitFld g jv source rk 0 e) y := by
        intro y hy
        rw [← glob_split ok eo jv source (mem_boxP.1 hy).1, ← globH_of_eo ok eo (splitFld g jv source) hy, ← glob_part ok eo jic invCl hy]
        have e : inv_tmclovDee (partFld g jic invCl 0) false (fun rk e => splitFld g jv source rk 0 e) =
            fun rk X => invClSpec false (partFld g jic invCl 0 rk X) (splitFld g jv source rk 0 X) := funext fun rk => funext fun X => inv_clovDee_eq _ _ _ _ _
        rw [e]; rfl
      exact ⟨go _ (tshift_mem_boxP ok eo hc mu (.inl rfl)), go _ (tshift_mem_boxP ok eo hc mu (.inr rfl))⟩
    rw [this])
  unfold inv_tmclovD_cg_eoprec inv_tmclovD_native
  simp only
  rw [ht]
  exact ⟨_, rfl⟩

end

/-- the hypotheses are met: a source on the odd sites only, on a lattice distributed on eight ranks -/
example (anis : Option ℝ) (conf : Nat → Nat → Quad) (v : SpCol) (hv : v ≠ 0) : let g : Geo := ⟨![8, 4, 4, 8], ![2, 1, 2, 2]⟩
    ∃ sol, inv_tmD_cg_eoprec g 0 0 0 none conf (1 / 8) anis (1 / 100) (24 * (boxP g 1).card + 1) (1 / 10 ^ 20) (pasteFld g 0 (eoPair 0 fun _ _ => v)) = .ok sol := by
  intro g
  have ok : g.Ok := by decide
  have eo : EoOk g := by decide
  refine C41_inv_tmD_returns ok eo 0 0 0 conf _ anis _ (by norm_num) _ (by omega) _ (by norm_num) _ ?_
  have hodd : ![0, 0, 0, 1] ∈ boxP g 1 := by rw [mem_boxP]; exact ⟨mem_box.2 (by decide), by decide⟩
  refine ⟨_, hodd, ?_⟩
  have h1 : ∀ c ∈ boxP g 1, glob g (pasteFld g (0 : SpCol) (eoPair 0 fun _ _ => v)) c = v := fun c hc => by
    rw [glob_paste ok eo _ _ (mem_boxP.1 hc).1, ← globH_of_eo ok eo _ hc]; rfl
  have h0 : ∀ c ∈ boxP g 0, glob g (pasteFld g (0 : SpCol) (eoPair 0 fun _ _ => v)) c = 0 := fun c hc => by
    rw [glob_paste ok eo _ _ (mem_boxP.1 hc).1, ← globH_of_eo ok eo _ hc]; rfl
  have hi : ∀ k m, invDiag k m 0 = 0 := fun k m => by funext i j; simp [invDiag, inv_tmDee]
  have hw : wilson g anis (glob g conf) (fun d => invDiag (1 / 8) (1 / 100) (glob g (pasteFld g (0 : SpCol) (eoPair 0 fun _ _ => v)) d)) ![0, 0, 0, 1] =
      wilson g anis (glob g conf) (fun d => (0 : ℂ) • (0 : SpCol)) ![0, 0, 0, 1] := by
    refine wilson_congr fun mu => ?_
    rw [h0 _ (tshift_mem_boxP ok eo hodd mu (.inl rfl)), h0 _ (tshift_mem_boxP ok eo hodd mu (.inr rfl)), hi]
    simp
  rw [h1 _ hodd, hw, wilson_smul g anis (glob g conf) 0 (fun _ => 0), zero_smul, smul_zero, add_zero]
  exact hv

end Nissa.EoP
