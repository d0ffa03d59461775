import Verif.Dirac.PropsEoPrec

/-! # C41: adjoints of the even/odd preconditioned operators, residue of the solution -/

set_option linter.all false

namespace Nissa.EoP
open Nissa.Lx Nissa.Sten Nissa.Su3f Nissa.Gauge Nissa.Gamma Nissa.StD Nissa.Wilson Matrix Complex

theorem wilson_add (g : Geo) (anis : Option ℝ) (U : Coords → Quad) (x y : Coords → SpCol) (c : Coords) :
    wilson g anis U (fun d => x d + y d) c = wilson g anis U x c + wilson g anis U y c := by
  unfold wilson
  rw [← Finset.sum_add_distrib]
  refine Finset.sum_congr rfl fun mu _ => ?_
  rw [← smul_add, colMul_add, colMul_add, spinMul_add, spinMul_add]
  congr 1
  abel

theorem wilson_smul (g : Geo) (anis : Option ℝ) (U : Coords → Quad) (a : ℂ) (x : Coords → SpCol) (c : Coords) :
    wilson g anis U (fun d => a • x d) c = a • wilson g anis U x c := by
  unfold wilson
  rw [Finset.smul_sum]
  refine Finset.sum_congr rfl fun mu _ => ?_
  rw [colMul_smul, colMul_smul, spinMul_smul, spinMul_smul, ← smul_add, smul_comm]

theorem g5_g5 (v : SpCol) : spinMul (Γ 5) (spinMul (Γ 5) v) = v := by rw [spinMul_mul, g5sq, spinMul_one]

theorem dotS_congr {s : Finset Coords} {y y' x x' : Coords → SpCol} (hy : ∀ c ∈ s, y c = y' c) (hx : ∀ c ∈ s, x c = x' c) : dotS s y x = dotS s y' x' :=
  Finset.sum_congr rfl fun c hc => by rw [hy c hc, hx c hc]

section
variable {g : Geo} (ok : g.Ok) (eo : EoOk g)
include ok eo

/-- hopping from the two parities: adjoint to each other, up to `gamma5` -/
theorem wilson_hermitian_parity (anis : Option ℝ) (U : Coords → Quad) {p : Nat} (hp : p < 2) (y x : Coords → SpCol) :
    dotS (boxP g p) y (fun c => spinMul (Γ 5) (wilson g anis U x c)) = dotS (boxP g (1 - p)) (fun c => spinMul (Γ 5) (wilson g anis U y c)) x := by
  simp only [dotS_eq, wilson, spinMul_sum, ip_sum, sum_ip, spinMul_smul, ip_smul, smul_ip, spinMul_add, ip_add, add_ip, spinMul_mul]
  rw [Finset.sum_comm, Finset.sum_comm (s := boxP g (1 - p))]
  refine Finset.sum_congr rfl fun mu _ => ?_
  rw [← Finset.mul_sum, ← Finset.mul_sum, Finset.sum_add_distrib, Finset.sum_add_distrib]
  rw [sum_shift_parity ok eo hp mu (.inl rfl) (fun c d => ip (y c) (spinMul (Γ 5 * (1 - γdir mu)) (colMul (U c mu) (x d))))]
  rw [sum_shift_parity ok eo hp mu (.inr rfl) (fun c d => ip (y c) (spinMul (Γ 5 * (1 + γdir mu)) (colMul (U d mu)ᴴ (x d))))]
  rw [neg_neg, add_comm]
  congr 1
  · simp
  congr 1
  · refine Finset.sum_congr rfl fun c _ => ?_
    rw [ip_spin, ip_col, bwd_adj, conjTranspose_conjTranspose, colMul_spinMul]
  · refine Finset.sum_congr rfl fun c _ => ?_
    rw [ip_spin, ip_col, fwd_adj, colMul_spinMul]

/-- adjoint of the Schur complement -/
theorem Kspec_adjoint (anis : Option ℝ) (U : Coords → Quad) (A B A' B' : Coords → SpCol → SpCol)
    (hA : ∀ c ∈ boxP g 1, ∀ u v, ip u (spinMul (Γ 5) (A c v)) = ip (spinMul (Γ 5) (A' c u)) v)
    (hB : ∀ c ∈ boxP g 0, ∀ u v, ip u (spinMul (Γ 5) (B c v)) = ip (spinMul (Γ 5) (B' c u)) v) (y x : Coords → SpCol) :
    dotS (boxP g 1) y (Kspec g anis U A B x) = dotS (boxP g 1) (Kspec g anis U A' B' y) x := by
  have e : dotS (boxP g 1) y (fun c => spinMul (Γ 5) (wilson g anis U (fun d => B d (wilson g anis U x d)) c)) =
      dotS (boxP g 1) (fun c => spinMul (Γ 5) (wilson g anis U (fun d => B' d (wilson g anis U y d)) c)) x := by
    rw [wilson_hermitian_parity ok eo anis U (by omega : 1 < 2)]
    have : dotS (boxP g 1) (fun c => spinMul (Γ 5) (wilson g anis U (fun d => B' d (wilson g anis U y d)) c)) x =
        dotS (boxP g (1 - 1)) (fun d => B' d (wilson g anis U y d)) (fun c => spinMul (Γ 5) (wilson g anis U x c)) :=
      (wilson_hermitian_parity ok eo anis U (by omega : 0 < 2) _ _).symm
    rw [this]
    simp only [dotS_eq]
    refine Finset.sum_congr rfl fun c hc => ?_
    have h := hB c hc (wilson g anis U y c) (wilson g anis U x c)
    rw [ip_spin, g5herm] at h
    rw [h, ip_spin, g5herm]
  simp only [dotS_eq] at e ⊢
  unfold Kspec
  simp only [spinMul_sub, spinMul_smul, ip_sub, sub_ip, ip_smul, smul_ip, Finset.sum_sub_distrib, ← Finset.mul_sum]
  rw [e]
  congr 1
  · exact Finset.sum_congr rfl fun c hc => hA c hc _ _
  · norm_num

omit ok eo in
theorem diag_adjoint (k mu : ℝ) (C : SpCol → SpCol) (hC : ∀ u v, ip u (spinMul (Γ 5) (C v)) = ip (spinMul (Γ 5) (C u)) v) (u v : SpCol) :
    ip u (spinMul (Γ 5) (diagSpec k mu C v)) = ip (spinMul (Γ 5) (diagSpec k (-mu) C u)) v := by
  unfold diagSpec
  simp only [spinMul_add, spinMul_smul, g5_g5, ip_add, add_ip, ip_smul, smul_ip, hC]
  rw [ip_spin (Γ 5) u v, g5herm]
  simp

omit ok eo in
theorem invDiag_adjoint (kappa mu : ℝ) (u v : SpCol) : ip u (spinMul (Γ 5) (invDiag kappa mu v)) = ip (spinMul (Γ 5) (invDiag kappa (-mu) u)) v := by
  set k := 1 / (2 * kappa)
  have e : ∀ m w, invDiag kappa m w = diagSpec (k / (k * k + m * m)) (-m / (k * k + m * m)) (fun _ => 0) w := by
    intro m w
    funext i a
    have h : ∀ (a b : ℝ), (⟨a, b⟩ : ℂ) = a + b * I := by intro a b; apply Complex.ext <;> simp
    unfold diagSpec
    show (if (i : Nat) < 2 then w i a * (⟨k / (k * k + m * m), -m / (k * k + m * m)⟩ : ℂ) else w i a * star (⟨k / (k * k + m * m), -m / (k * k + m * m)⟩ : ℂ)) = _
    simp only [gamma5_apply, h, Pi.add_apply, Pi.smul_apply, smul_eq_mul, Pi.zero_apply]
    by_cases hi : (i : Nat) < 2
    · simp only [hi, if_true]; push_cast; ring
    · simp only [hi, if_false, star_add, star_mul', Complex.star_def, Complex.conj_ofReal, Complex.conj_I]; push_cast; ring
  rw [e, e, diag_adjoint _ _ _ (fun u v => by simp [spinMul_zero, ip])]
  congr 3 <;> ring

omit ok eo in
theorem half_adjoint (b : Fin 2 → Fin 3 → Fin 2 → Fin 3 → ℂ) (u v : Fin 2 → Col) :
    ∑ i, star (u i) ⬝ᵥ half_times b v i = ∑ i, star (half_dag_times b u i) ⬝ᵥ v i := by
  simp only [half_times, half_dag_times, dotProduct, Fin.sum_univ_two, Fin.sum_univ_three, Pi.star_apply, star_add, star_mul', star_star]
  ring

omit ok eo in
theorem half_adjoint' (b : Fin 2 → Fin 3 → Fin 2 → Fin 3 → ℂ) (u v : Fin 2 → Col) :
    ∑ i, star (u i) ⬝ᵥ half_dag_times b v i = ∑ i, star (half_times b u i) ⬝ᵥ v i := by
  simp only [half_times, half_dag_times, dotProduct, Fin.sum_univ_two, Fin.sum_univ_three, Pi.star_apply, star_add, star_mul', star_star]
  ring

omit ok eo in
theorem invCl_adjoint (dag : Bool) (b : InvClov) (u v : SpCol) :
    ip u (spinMul (Γ 5) (invClSpec dag b v)) = ip (spinMul (Γ 5) (invClSpec (!dag) b u)) v := by
  have h0 := half_adjoint (b 0) ![u 0, u 1] ![v 0, v 1]
  have h1 := half_adjoint' (b 1) ![u 2, u 3] ![v 2, v 3]
  have h2 := half_adjoint' (b 0) ![u 0, u 1] ![v 0, v 1]
  have h3 := half_adjoint (b 1) ![u 2, u 3] ![v 2, v 3]
  simp only [Fin.sum_univ_two, Matrix.cons_val_zero, Matrix.cons_val_one] at h0 h1 h2 h3
  unfold ip
  simp only [gamma5_apply, Fin.sum_univ_four]
  cases dag
  · simp [invClSpec]
    linear_combination h0 - h1
  · simp [invClSpec]
    linear_combination h2 - h3

/-- C41: the kernel with opposite mass is the adjoint, for the scalar product on the odd sites of the global lattice -/
theorem C41_tmDkern_adjoint (ji : Nat) (jq : Quad) (jv : SpCol) (conf : Nat → Nat → Nat → Quad) (kappa : ℝ) (anis : Option ℝ) (mu : ℝ) (y x : HFld) :
    dotS (boxP g 1) (globH g y) (globH g (tmDkern g ji jq jv conf kappa anis mu x)) =
      dotS (boxP g 1) (globH g (tmDkern g ji jq jv conf kappa anis (-mu) y)) (globH g x) := by
  rw [dotS_congr (fun _ _ => rfl) (fun c hc => C41_tmDkern ok eo ji jq jv conf kappa anis mu x hc)]
  rw [dotS_congr (fun c hc => C41_tmDkern ok eo ji jq jv conf kappa anis (-mu) y hc) (fun _ _ => rfl)]
  exact Kspec_adjoint ok eo anis _ _ _ _ _ (fun c _ => diag_adjoint _ _ _ (fun u v => by simp [spinMul_zero, ip])) (fun c _ => invDiag_adjoint _ _) _ _

/-- C41: the same for the clover kernel: the `dag` flag gives the adjoint, whatever is stored as inverse of the clover term -/
theorem C41_tmclovDkern_adjoint (ji : Nat) (jq : Quad) (jv : SpCol) (conf : Nat → Nat → Nat → Quad) (kappa : ℝ) (anis : Option ℝ) (Cl_odd : Nat → Nat → Clov)
    (hCl : ∀ c ∈ boxP g 1, ClHerm (globH g Cl_odd c)) (invCl_evn : Nat → Nat → InvClov) (dag : Bool) (mu : ℝ) (y x : HFld) :
    dotS (boxP g 1) (globH g y) (globH g (tmclovDkern g ji jq jv conf kappa anis Cl_odd invCl_evn dag mu x)) =
      dotS (boxP g 1) (globH g (tmclovDkern g ji jq jv conf kappa anis Cl_odd invCl_evn (!dag) mu y)) (globH g x) := by
  rw [dotS_congr (fun _ _ => rfl) (fun c hc => C41_tmclovDkern ok eo ji jq jv conf kappa anis Cl_odd invCl_evn dag mu x hc)]
  rw [dotS_congr (fun c hc => C41_tmclovDkern ok eo ji jq jv conf kappa anis Cl_odd invCl_evn (!dag) mu y hc) (fun _ _ => rfl)]
  refine Kspec_adjoint ok eo anis _ _ _ _ _ (fun c hc u v => ?_) (fun c _ => invCl_adjoint _ _) _ _
  rw [diag_adjoint _ _ _ (clover_hermitian (hCl c hc))]
  cases dag <;> simp

/-- C41: the squared kernels: `<y,Ax> = <K^+ y,K^+ x>`, hence hermitian and not negative -/
theorem C41_tmDkern_square_form (ji : Nat) (jq : Quad) (jv : SpCol) (conf : Nat → Nat → Nat → Quad) (kappa : ℝ) (anis : Option ℝ) (mu : ℝ) (y x : HFld) :
    dotS (boxP g 1) (globH g y) (globH g (tmDkern_square g ji jq jv conf kappa anis mu x)) =
      dotS (boxP g 1) (globH g (tmDkern g ji jq jv conf kappa anis (-mu) y)) (globH g (tmDkern g ji jq jv conf kappa anis (-mu) x)) :=
  C41_tmDkern_adjoint ok eo ji jq jv conf kappa anis mu y _

theorem C41_tmclovDkern_square_form (ji : Nat) (jq : Quad) (jv : SpCol) (conf : Nat → Nat → Nat → Quad) (kappa : ℝ) (anis : Option ℝ) (Cl_odd : Nat → Nat → Clov)
    (hCl : ∀ c ∈ boxP g 1, ClHerm (globH g Cl_odd c)) (invCl_evn : Nat → Nat → InvClov) (mu : ℝ) (y x : HFld) :
    dotS (boxP g 1) (globH g y) (globH g (tmclovDkern_square g ji jq jv conf kappa anis Cl_odd invCl_evn mu x)) =
      dotS (boxP g 1) (globH g (tmclovDkern g ji jq jv conf kappa anis Cl_odd invCl_evn true mu y))
        (globH g (tmclovDkern g ji jq jv conf kappa anis Cl_odd invCl_evn true mu x)) :=
  C41_tmclovDkern_adjoint ok eo ji jq jv conf kappa anis Cl_odd hCl invCl_evn false mu y _

/-! ### The solution -/

theorem glob_split {V : Type} (jv : V) (lx : Nat → Nat → V) {c : Coords} (hc : c ∈ box g.L) : globEo g (splitFld g jv lx) c = glob g lx c := by
  obtain ⟨h1, h2, -, h4, -⟩ := C02_rank_and_loclx g ok c (mem_box.1 hc)
  obtain ⟨c', p, e, k1, k2, k3, k4, k5, k6, -⟩ := C07_eo_of_lx g ok eo (coordOfLx (getLoclxAndRankOfCoords g c).1 g.R)
    (getLoclxAndRankOfCoords g c).2 (by omega)
  rw [h4] at k1; cases k1
  unfold globEo glob splitFld
  rw [k4, ← k2, Option.getD_some]
  have he := loceo_eq ok eo (coordOfLx (getLoclxAndRankOfCoords g c).1 g.R) (l := (getLoclxAndRankOfCoords g c).2) (by unfold allVol; omega)
  rw [k4] at he; cases he
  rw [splitEo_spec ok eo _ _ h2 k3]
  rfl

theorem glob_paste {V : Type} (jv : V) (f : Nat → Nat → Nat → V) {c : Coords} (hc : c ∈ box g.L) : glob g (pasteFld g jv f) c = globEo g f c := by
  obtain ⟨h1, h2, -, h4, -⟩ := C02_rank_and_loclx g ok c (mem_box.1 hc)
  obtain ⟨c', p, e, k1, k2, k3, k4, k5, k6, -⟩ := C07_eo_of_lx g ok eo (coordOfLx (getLoclxAndRankOfCoords g c).1 g.R)
    (getLoclxAndRankOfCoords g c).2 (by omega)
  rw [h4] at k1; cases k1
  unfold globEo glob pasteFld
  rw [k4, ← k2, Option.getD_some]
  have he := loceo_eq ok eo (coordOfLx (getLoclxAndRankOfCoords g c).1 g.R) (l := (getLoclxAndRankOfCoords g c).2) (by unfold allVol; omega)
  rw [k4] at he; cases he
  rw [pasteEo_spec ok eo _ _ h2 k3]
  rfl

theorem glob_part {V : Type} (jv : V) (lx : Nat → Nat → V) {p : Nat} {c : Coords} (hc : c ∈ boxP g p) : globH g (partFld g jv lx p) c = glob g lx c := by
  rw [← glob_split ok eo jv lx (mem_boxP.1 hc).1]
  obtain ⟨rk, e, l, h1, h2, hr, hl, hx, hF, hG⟩ := eoSiteOf ok eo (mem_boxP.1 hc).1
  rw [hF, hG]
  have := par_lt ok eo c
  rw [(mem_boxP.1 hc).2] at *
  unfold partFld splitFld
  rw [C08_get_part g ok eo _ _ _ _ this h2]

theorem globH_of_eo {V : Type} (f : Nat → Nat → Nat → V) {p : Nat} {c : Coords} (hc : c ∈ boxP g p) : globH g (fun rk e => f rk p e) c = globEo g f c := by
  obtain ⟨rk, e, l, h1, h2, hr, hl, hx, hF, hG⟩ := eoSiteOf ok eo (mem_boxP.1 hc).1
  rw [hF, hG, (mem_boxP.1 hc).2]

/-- the algebra of the preconditioning: from the solution `xo` on the odd sites (with residue `K xo`), the full system is solved on the even sites up
to the accuracy of the inverse `B` of `A`, and the residue on the odd sites is the one of the preconditioned system. -/
theorem schur (anis : Option ℝ) (U : Coords → Quad) (A B : Coords → SpCol → SpCol) (hB : ∀ c ∈ boxP g 0, ∀ (a : ℂ) u v, B c (u + a • v) = B c u + a • B c v)
    (x s varphi : Coords → SpCol) (hx : ∀ c ∈ boxP g 0, x c = B c (s c + (1 / 2 : ℂ) • wilson g anis U x c))
    (hphi : ∀ c ∈ boxP g 1, varphi c = spinMul (Γ 5) (s c + (1 / 2 : ℂ) • wilson g anis U (fun d => B d (s d)) c)) :
    (∀ c ∈ boxP g 0, Dspec g anis U A x c - s c = A c (B c (s c + (1 / 2 : ℂ) • wilson g anis U x c)) - (s c + (1 / 2 : ℂ) • wilson g anis U x c)) ∧
    ∀ c ∈ boxP g 1, Dspec g anis U A x c - s c = spinMul (Γ 5) (Kspec g anis U A B x c - varphi c) := by
  constructor
  · intro c hc
    unfold Dspec
    rw [← hx c hc]
    abel
  · intro c hc
    have e1 : wilson g anis U x c = wilson g anis U (fun d => B d (s d) + (1 / 2 : ℂ) • B d (wilson g anis U x d)) c := by
      refine wilson_congr fun mu => ?_
      have go : ∀ y ∈ boxP g 0, x y = B y (s y) + (1 / 2 : ℂ) • B y (wilson g anis U x y) := fun y hy => by rw [← hB y hy]; exact hx y hy
      exact ⟨go _ (tshift_mem_boxP ok eo hc mu (.inl rfl)), go _ (tshift_mem_boxP ok eo hc mu (.inr rfl))⟩
    rw [wilson_add g anis U (fun d => B d (s d)), wilson_smul] at e1
    rw [hphi c hc, spinMul_sub, g5_g5]
    unfold Dspec Kspec
    rw [g5_g5, e1, smul_add, smul_smul]
    norm_num
    abel

omit ok eo in
theorem invDiag_lin (kappa mu : ℝ) (a : ℂ) (u v : SpCol) : invDiag kappa mu (u + a • v) = invDiag kappa mu u + a • invDiag kappa mu v := by
  funext i b
  unfold invDiag inv_tmDee
  simp only [Pi.add_apply, Pi.smul_apply, smul_eq_mul]
  by_cases hi : (i : Nat) < 2
  · simp only [hi, if_true]; ring
  · simp only [hi, if_false]; ring

omit ok eo in
theorem half_lin (b : Fin 2 → Fin 3 → Fin 2 → Fin 3 → ℂ) (a : ℂ) (u v : Fin 2 → Col) :
    half_times b (u + a • v) = half_times b u + a • half_times b v ∧ half_dag_times b (u + a • v) = half_dag_times b u + a • half_dag_times b v := by
  constructor <;>
  · funext i c
    simp only [half_times, half_dag_times, Fin.sum_univ_two, Fin.sum_univ_three, Pi.add_apply, Pi.smul_apply, smul_eq_mul]
    ring

omit ok eo in
theorem invCl_lin (dag : Bool) (b : InvClov) (a : ℂ) (u v : SpCol) : invClSpec dag b (u + a • v) = invClSpec dag b u + a • invClSpec dag b v := by
  have e0 : (![(u + a • v) 0, (u + a • v) 1] : Fin 2 → Col) = ![u 0, u 1] + a • ![v 0, v 1] := by funext i; fin_cases i <;> rfl
  have e1 : (![(u + a • v) 2, (u + a • v) 3] : Fin 2 → Col) = ![u 2, u 3] + a • ![v 2, v 3] := by funext i; fin_cases i <;> rfl
  unfold invClSpec
  rw [e0, e1]
  simp only [(half_lin _ _ _ _).1, (half_lin _ _ _ _).2]
  cases dag <;> · funext i; fin_cases i <;> rfl

theorem varphi_eq (ji : Nat) (jq : Quad) (jv : SpCol) (conf : Nat → Nat → Nat → Quad) (anis : Option ℝ) (eq8a so : HFld) {c : Coords} (hc : c ∈ boxP g 1) :
    globH g (prepare_source g ji jq jv conf anis eq8a so) c =
      spinMul (Γ 5) (globH g so c + (1 / 2 : ℂ) • wilson g anis (globEo g conf) (globH g eq8a) c) := by
  have h := C41_hopping ok eo ji jq jv conf anis (by omega : 1 < 2) eq8a hc
  obtain ⟨rk, e, l, h1, h2, hr, hl, hx, hF, hG⟩ := eoSiteOf ok eo (mem_boxP.1 hc).1
  rw [hG, hG so, ← h, hG]
  funext i
  rw [gamma5_apply]
  funext a
  unfold prepare_source
  simp only [Pi.smul_apply, Pi.add_apply, smul_eq_mul]
  by_cases h : (i : Nat) < 2
  · simp only [h, if_true]; push_cast; norm_num; ring
  · simp only [h, if_false]; push_cast; norm_num; ring

theorem reco_eq (ji : Nat) (jq : Quad) (jv : SpCol) (conf : Nat → Nat → Nat → Quad) (anis : Option ℝ) (xo se : HFld) {c : Coords} (hc : c ∈ boxP g 0) :
    globH g (almost_reco_sol g ji jq jv conf anis xo se) c = globH g se c + (1 / 2 : ℂ) • wilson g anis (globEo g conf) (globH g xo) c := by
  have h := C41_hopping ok eo ji jq jv conf anis (by omega : 0 < 2) xo hc
  obtain ⟨rk, e, l, h1, h2, hr, hl, hx, hF, hG⟩ := eoSiteOf ok eo (mem_boxP.1 hc).1
  rw [hG, hG se, ← h, hG]
  funext i a
  unfold almost_reco_sol
  simp only [Pi.smul_apply, Pi.add_apply, smul_eq_mul]
  push_cast; norm_num; ring

theorem wilson_split (anis : Option ℝ) (jq : Quad) (conf : Nat → Nat → Quad) (x : Coords → SpCol) {c : Coords} (hc : c ∈ box g.L) :
    wilson g anis (globEo g (splitFld g jq conf)) x c = wilson g anis (glob g conf) x c :=
  wilson_congrU (glob_split ok eo jq conf hc) fun mu => glob_split ok eo jq conf (tshift_mem_box ok hc mu (-1))

/-- hopping of the two halves of a field -/
theorem wilson_pair (anis : Option ℝ) (U : Coords → Quad) (evn odd : HFld) {p : Nat} (hp : p < 2) {c : Coords} (hc : c ∈ boxP g (1 - p)) :
    wilson g anis U (globH g (if p = 0 then evn else odd)) c = wilson g anis U (globEo g (eoPair evn odd)) c := by
  refine wilson_congr fun mu => ?_
  have go : ∀ y ∈ boxP g p, globH g (if p = 0 then evn else odd) y = globEo g (eoPair evn odd) y := by
    intro y hy
    rw [← globH_of_eo ok eo (eoPair evn odd) hy]
    unfold eoPair
    by_cases h : p = 0 <;> simp only [h, if_true, if_false]
  have hu := tshift_mem_boxP ok eo hc mu (d := 1) (.inl rfl)
  have hd := tshift_mem_boxP ok eo hc mu (d := -1) (.inr rfl)
  rw [show 1 - (1 - p) = p by omega] at hu hd
  exact ⟨go _ hu, go _ hd⟩

omit ok eo in
theorem Kspec_congr {anis : Option ℝ} {U : Coords → Quad} {A A' B B' : Coords → SpCol → SpCol} {x x' : Coords → SpCol} {c : Coords} (h0 : A c (x c) = A' c (x' c))
    (h : ∀ mu, B (tshift g c mu 1) (wilson g anis U x (tshift g c mu 1)) = B' (tshift g c mu 1) (wilson g anis U x' (tshift g c mu 1)) ∧
      B (tshift g c mu (-1)) (wilson g anis U x (tshift g c mu (-1))) = B' (tshift g c mu (-1)) (wilson g anis U x' (tshift g c mu (-1)))) :
    Kspec g anis U A B x c = Kspec g anis U A' B' x' c := by
  unfold Kspec
  rw [h0]
  have := wilson_congr (g := g) (anis := anis) (U := U) (x := fun d => B d (wilson g anis U x d)) (y := fun d => B' d (wilson g anis U x' d)) (c := c) h
  rw [this]

theorem Kspec_split (anis : Option ℝ) (jq : Quad) (conf : Nat → Nat → Quad) (A B : Coords → SpCol → SpCol) (x : Coords → SpCol) {c : Coords} (hc : c ∈ box g.L) :
    Kspec g anis (globEo g (splitFld g jq conf)) A B x c = Kspec g anis (glob g conf) A B x c := by
  unfold Kspec
  rw [wilson_split ok eo anis jq conf _ hc]
  have : wilson g anis (glob g conf) (fun d => B d (wilson g anis (globEo g (splitFld g jq conf)) x d)) c =
      wilson g anis (glob g conf) (fun d => B d (wilson g anis (glob g conf) x d)) c := by
    refine wilson_congr fun mu => ⟨?_, ?_⟩
    · show B _ _ = B _ _
      rw [wilson_split ok eo anis jq conf _ (tshift_mem_box ok hc mu 1)]
    · show B _ _ = B _ _
      rw [wilson_split ok eo anis jq conf _ (tshift_mem_box ok hc mu (-1))]
  rw [this]

/-- common part of the two frontends -/
theorem frontend (ji : Nat) (jq : Quad) (jv : SpCol) (conf : Nat → Nat → Quad) (anis : Option ℝ) (source : Nat → Nat → SpCol) (A B : Coords → SpCol → SpCol)
    (Bf : HFld → HFld) (Kf : HFld → HFld) (hBf : ∀ (x : HFld), ∀ c ∈ boxP g 0, globH g (Bf x) c = B c (globH g x c))
    (hKf : ∀ (x : HFld), ∀ c ∈ boxP g 1, globH g (Kf x) c = Kspec g anis (globEo g (splitFld g jq conf)) A B (globH g x) c)
    (hB : ∀ c ∈ boxP g 0, ∀ (a : ℂ) u v, B c (u + a • v) = B c u + a • B c v) (xo : HFld) :
    let se : HFld := fun rk e => splitFld g jv source rk 0 e
    let so : HFld := fun rk e => splitFld g jv source rk 1 e
    let varphi := prepare_source g ji jq jv (splitFld g jq conf) anis (Bf se) so
    let sol := pasteFld g jv (eoPair (Bf (almost_reco_sol g ji jq jv (splitFld g jq conf) anis xo se)) xo)
    (∀ c ∈ boxP g 0, Dspec g anis (glob g conf) A (glob g sol) c - glob g source c =
      A c (B c (glob g source c + (1 / 2 : ℂ) • wilson g anis (glob g conf) (glob g sol) c)) - (glob g source c + (1 / 2 : ℂ) • wilson g anis (glob g conf) (glob g sol) c)) ∧
    ∀ c ∈ boxP g 1, Dspec g anis (glob g conf) A (glob g sol) c - glob g source c = - spinMul (Γ 5) (globH g varphi c - globH g (Kf xo) c) := by
  intro se so varphi sol
  have hse : ∀ c ∈ boxP g 0, globH g se c = glob g source c := fun c hc => by
    rw [globH_of_eo ok eo (splitFld g jv source) hc, glob_split ok eo jv source (mem_boxP.1 hc).1]
  have hso : ∀ c ∈ boxP g 1, globH g so c = glob g source c := fun c hc => by
    rw [globH_of_eo ok eo (splitFld g jv source) hc, glob_split ok eo jv source (mem_boxP.1 hc).1]
  have hxo : ∀ c ∈ boxP g 1, glob g sol c = globH g xo c := fun c hc => by
    rw [glob_paste ok eo jv _ (mem_boxP.1 hc).1, ← globH_of_eo ok eo _ hc]; rfl
  have hxe : ∀ c ∈ boxP g 0, glob g sol c = globH g (Bf (almost_reco_sol g ji jq jv (splitFld g jq conf) anis xo se)) c := fun c hc => by
    rw [glob_paste ok eo jv _ (mem_boxP.1 hc).1, ← globH_of_eo ok eo _ hc]; rfl
  have hWo : ∀ c ∈ boxP g 0, wilson g anis (globEo g (splitFld g jq conf)) (globH g xo) c = wilson g anis (glob g conf) (glob g sol) c := fun c hc => by
    rw [wilson_split ok eo anis jq conf _ (mem_boxP.1 hc).1]
    refine wilson_congr fun mu => ⟨?_, ?_⟩
    · exact (hxo _ (tshift_mem_boxP ok eo hc mu (.inl rfl))).symm
    · exact (hxo _ (tshift_mem_boxP ok eo hc mu (.inr rfl))).symm
  have key := schur ok eo anis (glob g conf) A B hB (glob g sol) (glob g source) (globH g varphi) (fun c hc => by
      rw [hxe c hc, hBf _ c hc, reco_eq ok eo ji jq jv _ anis xo se hc, hse c hc, hWo c hc]) (fun c hc => by
      refine Eq.trans (b := globH g (prepare_source g ji jq jv (splitFld g jq conf) anis (Bf se) so) c) rfl ?_
      have e : wilson g anis (glob g conf) (globH g (Bf se)) c = wilson g anis (glob g conf) (fun d => B d (glob g source d)) c := by
        refine wilson_congr fun mu => ?_
        have go : ∀ y ∈ boxP g 0, globH g (Bf se) y = B y (glob g source y) := fun y hy => by rw [hBf _ y hy, hse y hy]
        exact ⟨go _ (tshift_mem_boxP ok eo hc mu (.inl rfl)), go _ (tshift_mem_boxP ok eo hc mu (.inr rfl))⟩
      rw [varphi_eq ok eo ji jq jv _ anis _ so hc, hso c hc, wilson_split ok eo anis jq conf _ (mem_boxP.1 hc).1, e])
  refine ⟨key.1, fun c hc => ?_⟩
  rw [key.2 c hc, hKf xo c hc, Kspec_split ok eo anis jq conf _ _ _ (mem_boxP.1 hc).1]
  have : Kspec g anis (glob g conf) A B (glob g sol) c = Kspec g anis (glob g conf) A B (globH g xo) c := by
    refine Kspec_congr (by rw [hxo c hc]) fun mu => ?_
    have go : ∀ y ∈ boxP g 0, wilson g anis (glob g conf) (glob g sol) y = wilson g anis (glob g conf) (globH g xo) y := fun y hy => by
      rw [← hWo y hy, wilson_split ok eo anis jq conf _ (mem_boxP.1 hy).1]
    exact ⟨by rw [go _ (tshift_mem_boxP ok eo hc mu (.inl rfl))], by rw [go _ (tshift_mem_boxP ok eo hc mu (.inr rfl))]⟩
  rw [this, spinMul_sub, spinMul_sub]
  abel

/-- C41: whatever the solver of the odd system returns, the solution of the preconditioned twisted mass inverter solves exactly the full system on the even
sites, and on the odd ones its residue is, up to `gamma5`, the residue of the odd system: the accuracy reached there is the one of the full solution. -/
theorem C41_inv_tmD_residue {Cr : Type} (ji : Nat) (jq : Quad) (jv : SpCol) (solve : (Nat → Nat → Nat → Quad) → HFld → Except Cr HFld) (conf : Nat → Nat → Quad) (kappa : ℝ)
    (anis : Option ℝ) (mass : ℝ) (hk : 1 / (2 * kappa) ≠ 0 ∨ mass ≠ 0) (source sol : Nat → Nat → SpCol) (varphi t : HFld)
    (h : inv_tmD_native g ji jq jv solve conf kappa anis mass source = .ok (sol, varphi, t)) :
    solve (splitFld g jq conf) varphi = .ok t ∧
    (∀ c ∈ boxP g 0, Dspec g anis (glob g conf) (fun _ => diagSpec (1 / (2 * kappa)) mass fun _ => 0) (glob g sol) c = glob g source c) ∧
    ∀ c ∈ boxP g 1, Dspec g anis (glob g conf) (fun _ => diagSpec (1 / (2 * kappa)) mass fun _ => 0) (glob g sol) c - glob g source c =
      - spinMul (Γ 5) (globH g varphi c - globH g (tmDkern_square g ji jq jv (splitFld g jq conf) kappa anis mass t) c) := by
  unfold inv_tmD_native at h
  simp only at h
  cases hs : solve (splitFld g jq conf) (prepare_source g ji jq jv (splitFld g jq conf) anis (inv_tmDee kappa mass fun rk e => splitFld g jv source rk 0 e)
      fun rk e => splitFld g jv source rk 1 e) with
  | error c => rw [hs] at h; cases h
  | ok t' =>
    rw [hs] at h
    cases h
    have F := frontend ok eo ji jq jv conf anis source (fun _ => diagSpec (1 / (2 * kappa)) mass fun _ => 0) (fun _ => invDiag kappa mass)
      (inv_tmDee kappa mass) (tmDkern g ji jq jv (splitFld g jq conf) kappa anis mass) (fun _ _ _ => rfl)
      (fun x c hc => C41_tmDkern ok eo ji jq jv _ kappa anis mass x hc) (fun c _ a u v => invDiag_lin kappa mass a u v)
      (tmDkern g ji jq jv (splitFld g jq conf) kappa anis (-mass) t)
    simp only at F
    refine ⟨hs, fun c hc => ?_, F.2⟩
    have inv : ∀ v, diagSpec (1 / (2 * kappa)) mass (fun _ => 0) (invDiag kappa mass v) = v := by
      intro v
      have := congrFun (congrFun (C41_inv_tmDee kappa mass hk (fun _ _ => v)).2 0) 0
      rw [dee_eq] at this
      exact this
    have := F.1 c hc
    rw [inv, sub_self] at this
    exact sub_eq_zero.1 this

/-- C41: the same with the clover term.  `invCl` is whatever is stored as inverse: on the even sites the residue is the failure of `invCl` to be the inverse. -/
theorem C41_inv_tmclovD_residue {Cr : Type} (ji : Nat) (jq : Quad) (jv : SpCol) (jc : Clov) (jic : InvClov)
    (solve : (Nat → Nat → Nat → Quad) → (Nat → Nat → Clov) → (Nat → Nat → InvClov) → HFld → Except Cr HFld) (conf : Nat → Nat → Quad) (kappa : ℝ)
    (anis : Option ℝ) (Cl : Nat → Nat → Clov) (invCl : Nat → Nat → InvClov) (mass : ℝ) (source sol : Nat → Nat → SpCol) (varphi t : HFld)
    (h : inv_tmclovD_native g ji jq jv jc jic solve conf kappa anis Cl invCl mass source = .ok (sol, varphi, t)) :
    let A := fun c => diagSpec (1 / (2 * kappa)) mass (scMul (cloverBlock (glob g Cl c)))
    let rhs := fun c => glob g source c + (1 / 2 : ℂ) • wilson g anis (glob g conf) (glob g sol) c
    solve (splitFld g jq conf) (partFld g jc Cl 1) (partFld g jic invCl 0) varphi = .ok t ∧
    (∀ c ∈ boxP g 0, Dspec g anis (glob g conf) A (glob g sol) c - glob g source c = A c (invClSpec false (glob g invCl c) (rhs c)) - rhs c) ∧
    ∀ c ∈ boxP g 1, Dspec g anis (glob g conf) A (glob g sol) c - glob g source c =
      - spinMul (Γ 5) (globH g varphi c -
        globH g (tmclovDkern_square g ji jq jv (splitFld g jq conf) kappa anis (partFld g jc Cl 1) (partFld g jic invCl 0) mass t) c) := by
  intro A rhs
  unfold inv_tmclovD_native at h
  simp only at h
  cases hs : solve (splitFld g jq conf) (partFld g jc Cl 1) (partFld g jic invCl 0) (prepare_source g ji jq jv (splitFld g jq conf) anis
      (inv_tmclovDee (partFld g jic invCl 0) false fun rk e => splitFld g jv source rk 0 e) fun rk e => splitFld g jv source rk 1 e) with
  | error c => rw [hs] at h; cases h
  | ok t' =>
    rw [hs] at h
    cases h
    have F := frontend ok eo ji jq jv conf anis source A (fun c => invClSpec false (glob g invCl c))
      (inv_tmclovDee (partFld g jic invCl 0) false) (tmclovDkern g ji jq jv (splitFld g jq conf) kappa anis (partFld g jc Cl 1) (partFld g jic invCl 0) false mass)
      (fun x c hc => by
        have e : inv_tmclovDee (partFld g jic invCl 0) false x = fun rk X => invClSpec false (partFld g jic invCl 0 rk X) (x rk X) :=
          funext fun rk => funext fun X => inv_clovDee_eq _ _ _ _ _
        rw [e, ← glob_part ok eo jic invCl hc]; rfl)
      (fun x c hc => by
        rw [C41_tmclovDkern ok eo ji jq jv _ kappa anis _ _ false mass x hc]
        refine Kspec_congr (by rw [glob_part ok eo jc Cl hc]; rfl) fun mu => ?_
        have go : ∀ y ∈ boxP g 0, globH g (partFld g jic invCl 0) y = glob g invCl y := fun y hy => glob_part ok eo jic invCl hy
        exact ⟨by rw [go _ (tshift_mem_boxP ok eo hc mu (.inl rfl))], by rw [go _ (tshift_mem_boxP ok eo hc mu (.inr rfl))]⟩)
      (fun c _ a u v => invCl_lin false _ a u v)
      (tmclovDkern g ji jq jv (splitFld g jq conf) kappa anis (partFld g jc Cl 1) (partFld g jic invCl 0) true mass t)
    exact ⟨hs, F.1, F.2⟩

end

end Nissa.EoP
