import Verif.Ib.PropsContr4

/-! # C63: Ward identity of the conserved current; propagators -/

set_option linter.all false

namespace Nissa.Contr
open Nissa.Lx Nissa.Sten Nissa.Su3f Nissa.Gauge Nissa.Gamma Nissa.StD Nissa.Wilson Nissa.EoP Matrix Complex
open Nissa.Clv (As2t clover_term)

noncomputable section

abbrev M4 := Matrix (Fin 4) (Fin 4) ℂ

/-- the rotation of the operator -/
def rotMat (twisted : Bool) (r : Fin 2) : M4 := if twisted then dense (dopRot r) else 1

theorem tau3_sq (r : Fin 2) : (tau3 r : ℂ) * tau3 r = 1 := by
  unfold tau3; split <;> simp

theorem tau3_flip (r : Fin 2) : tau3 (1 - r) = - tau3 r := by
  fin_cases r <;> simp [tau3]

theorem dopRot_eq (r : Fin 2) : dense (dopRot r) = ((1 / √2 : ℝ) : ℂ) • (1 - (I * tau3 r) • Γ 5) := by
  have t0 : tau3 0 = -1 := if_pos rfl
  have t1 : tau3 1 = 1 := if_neg (by decide)
  unfold dopRot
  fin_cases r
  · show dense (if tau3 0 = 1 then pMinus else pPlus) = _ • (1 - (I * (tau3 0 : ℂ)) • Γ 5)
    rw [if_neg (by rw [t0]; norm_num), C30_rotators.1, t0]
    congr 1
    simp [sub_eq_add_neg]
  · show dense (if tau3 1 = 1 then pMinus else pPlus) = _ • (1 - (I * (tau3 1 : ℂ)) • Γ 5)
    rw [if_pos t1, C30_rotators.2.1, t1]
    congr 2
    simp

theorem half_sq : ((1 / √2 : ℝ) : ℂ) * ((1 / √2 : ℝ) : ℂ) = 1 / 2 := by
  rw [← Complex.ofReal_mul, show (1 / √2) * (1 / √2) = (1 / 2 : ℝ) by
    rw [div_mul_div_comm, Real.mul_self_sqrt (by norm_num)]; norm_num]
  norm_num

/-- algebra of the combinations of `1` and `gamma5` -/
theorem g5comb (a b a' b' : ℂ) : (a • (1 : M4) + b • Γ 5) * (a' • 1 + b' • Γ 5) = (a * a' + b * b') • 1 + (a * b' + b * a') • Γ 5 := by
  simp only [Matrix.add_mul, Matrix.mul_add, Matrix.smul_mul, Matrix.mul_smul, Matrix.one_mul, Matrix.mul_one, g5sq, smul_smul, smul_add, add_smul]
  rw [mul_comm a' a, mul_comm b' b, mul_comm b' a, mul_comm a' b]
  abel

theorem g5comb_gamma (a b : ℂ) (mu : Dir) : γdir mu * (a • (1 : M4) + b • Γ 5) = (a • (1 : M4) + (-b) • Γ 5) * γdir mu := by
  simp only [Matrix.add_mul, Matrix.mul_add, Matrix.smul_mul, Matrix.mul_smul, Matrix.one_mul, Matrix.mul_one, g5anti, neg_smul, smul_neg, Matrix.neg_mul]

theorem rot_comb (twisted : Bool) (r : Fin 2) : ∃ a b : ℂ, rotMat twisted r = a • (1 : M4) + b • Γ 5 ∧ wilsonMat twisted r = (a * a + b * b) • (1 : M4) + (a * b + b * a) • Γ 5 ∧
    a * a - b * b = 1 ∧ rotMat twisted (1 - r) = star a • (1 : M4) + star b • Γ 5 := by
  unfold rotMat wilsonMat
  cases twisted
  · exact ⟨1, 0, by simp, by simp, by simp, by simp⟩
  · refine ⟨((1 / √2 : ℝ) : ℂ), -(((1 / √2 : ℝ) : ℂ) * (I * tau3 r)), ?_, ?_, ?_, ?_⟩
    · rw [if_pos rfl, dopRot_eq, smul_sub, smul_smul, neg_smul, sub_eq_add_neg]
    · rw [if_pos rfl]
      have e1 : ((1 / √2 : ℝ) : ℂ) * ((1 / √2 : ℝ) : ℂ) + -(((1 / √2 : ℝ) : ℂ) * (I * tau3 r)) * -(((1 / √2 : ℝ) : ℂ) * (I * tau3 r)) = 0 := by
        calc _ = ((1 / √2 : ℝ) : ℂ) * ((1 / √2 : ℝ) : ℂ) * (1 + I * I * ((tau3 r : ℂ) * tau3 r)) := by ring
          _ = 0 := by rw [tau3_sq, I_mul_I]; ring
      have e2 : ((1 / √2 : ℝ) : ℂ) * -(((1 / √2 : ℝ) : ℂ) * (I * tau3 r)) + -(((1 / √2 : ℝ) : ℂ) * (I * tau3 r)) * ((1 / √2 : ℝ) : ℂ) = -(I * tau3 r) := by
        calc _ = -2 * (((1 / √2 : ℝ) : ℂ) * ((1 / √2 : ℝ) : ℂ)) * (I * tau3 r) := by ring
          _ = _ := by rw [half_sq]; ring
      rw [e1, e2, zero_smul, zero_add]
    · calc _ = ((1 / √2 : ℝ) : ℂ) * ((1 / √2 : ℝ) : ℂ) * (1 - I * I * ((tau3 r : ℂ) * tau3 r)) := by ring
        _ = 1 := by rw [tau3_sq, I_mul_I, half_sq]; ring
    · rw [if_pos rfl, dopRot_eq, tau3_flip, smul_sub, smul_smul, sub_eq_add_neg, ← neg_smul]
      congr 2
      · simp
      · simp

/-- the rotation brings the Wilson term to the one of the current -/
theorem rot_hop (twisted : Bool) (r : Fin 2) (mu : Dir) : rotMat twisted r * (1 - γdir mu) * rotMat twisted r = wilsonMat twisted r - γdir mu ∧
    rotMat twisted r * (1 + γdir mu) * rotMat twisted r = wilsonMat twisted r + γdir mu := by
  obtain ⟨a, b, h1, h2, h3, -⟩ := rot_comb twisted r
  have hg : rotMat twisted r * γdir mu * rotMat twisted r = γdir mu := by
    rw [h1, Matrix.mul_assoc, g5comb_gamma, ← Matrix.mul_assoc, g5comb, show a * a + b * -b = 1 by rw [← h3]; ring, show a * -b + b * a = 0 by ring]
    simp
  have h11 : rotMat twisted r * rotMat twisted r = wilsonMat twisted r := by rw [h1, h2, g5comb]
  constructor
  · rw [Matrix.mul_sub, Matrix.sub_mul, Matrix.mul_one, hg, h11]
  · rw [Matrix.mul_add, Matrix.add_mul, Matrix.mul_one, hg, h11]

theorem rot_sq (twisted : Bool) (r : Fin 2) : rotMat twisted r * rotMat twisted r = wilsonMat twisted r := by
  obtain ⟨a, b, h1, h2, h3, -⟩ := rot_comb twisted r
  rw [h1, h2, g5comb]

theorem rot_g5 (twisted : Bool) (r : Fin 2) : rotMat twisted r * Γ 5 = Γ 5 * rotMat twisted r := by
  obtain ⟨a, b, h1, -⟩ := rot_comb twisted r
  rw [h1]
  simp [Matrix.add_mul, Matrix.mul_add]

theorem rot_flip (twisted : Bool) (r : Fin 2) : (rotMat twisted (1 - r))ᴴ = rotMat twisted r := by
  obtain ⟨a, b, h1, -, -, h4⟩ := rot_comb twisted r
  rw [h1, h4, conjTranspose_add, conjTranspose_smul, conjTranspose_smul, conjTranspose_one, g5herm, star_star, star_star]

theorem wil_flip (twisted : Bool) (r : Fin 2) : (wilsonMat twisted (1 - r))ᴴ = wilsonMat twisted r := by
  rw [← rot_sq, conjTranspose_mul, rot_flip, rot_sq]

theorem wil_g5 (twisted : Bool) (r : Fin 2) : wilsonMat twisted r * Γ 5 = Γ 5 * wilsonMat twisted r := by
  rw [← rot_sq, Matrix.mul_assoc, rot_g5, ← Matrix.mul_assoc, rot_g5, Matrix.mul_assoc]

theorem ip_adj (M : M4) (u v : SpCol) : ip (spinMul M u) v = ip u (spinMul Mᴴ v) := by
  rw [ip_spin, conjTranspose_conjTranspose]

theorem ip_col' (U : M3) (y v : SpCol) : ip y (colMul Uᴴ v) = ip (colMul U y) v := by
  rw [ip_col, conjTranspose_conjTranspose]

section
variable {g : Geo} (ok : g.Ok)

/-- the operator in the basis of the propagators -/
theorem dop_eq (twisted : Bool) (r : Fin 2) (U : Coords → Quad) (k mu : ℝ) (C : Coords → SpCol → SpCol) (applyQ : (Nat → Nat → SpCol) → Nat → Nat → SpCol)
    (hQ : ∀ x, ∀ c ∈ box g.L, glob g (applyQ x) c = Qspec g none U k C mu (glob g x) c) (x : Nat → Nat → SpCol) {c : Coords} (hc : c ∈ box g.L) :
    glob g (mult_by_Dop twisted r applyQ x) c = spinMul ((k : ℂ) • wilsonMat twisted r + ((mu : ℂ) * I) • (Γ 5 * wilsonMat twisted r)) (glob g x c) +
      spinMul (rotMat twisted r) (C c (spinMul (rotMat twisted r) (glob g x c))) -
      (1 / 2 : ℂ) • ∑ nu : Dir, (spinMul (wilsonMat twisted r - γdir nu) (colMul (U c nu) (glob g x (tshift g c nu 1))) +
        spinMul (wilsonMat twisted r + γdir nu) (colMul (U (tshift g c nu (-1)) nu)ᴴ (glob g x (tshift g c nu (-1))))) := by
  have hrot : ∀ F : Nat → Nat → SpCol, ∀ d, glob g (if twisted then fun rk ivol => diracSpinColor (dopRot r) (F rk ivol) else F) d = spinMul (rotMat twisted r) (glob g F d) := by
    intro F d
    unfold rotMat glob
    cases twisted
    · simp [spinMul_one]
    · simp only [if_true]; exact diracSpinColor_eq _ _
  unfold mult_by_Dop
  simp only
  rw [hrot]
  have h5 : ∀ F : Nat → Nat → SpCol, glob g (fun rk ivol => diracSpinColor (baseGamma 5) (F rk ivol)) c = spinMul (Γ 5) (glob g F c) := fun F => diracSpinColor_eq _ _
  rw [h5, hQ _ c hc, ← C41_D_is_Q]
  unfold Dspec diagSpec wilson
  simp only [hrot]
  simp only [weight, Option.getD_none, ite_self, Complex.ofReal_one, one_smul]
  rw [spinMul_sub, spinMul_add, spinMul_add, spinMul_smul, spinMul_smul, spinMul_smul, spinMul_sum]
  congr 1
  · congr 1
    rw [spinMul_mul, spinMul_mul, spinMul_mul, rot_sq, rot_g5, Matrix.mul_assoc, rot_sq]
    funext i
    simp only [Pi.add_apply, Pi.smul_apply, spinMul, Matrix.add_apply, Matrix.smul_apply, add_smul, Finset.sum_add_distrib, smul_eq_mul, Finset.smul_sum, smul_smul]
  · congr 1
    refine Finset.sum_congr rfl fun nu _ => ?_
    rw [spinMul_add, colMul_spinMul, colMul_spinMul, spinMul_mul, spinMul_mul, spinMul_mul, spinMul_mul, (rot_hop twisted r nu).1, (rot_hop twisted r nu).2]

include ok

theorem ward (twisted : Bool) (r : Fin 2) (U : Coords → Quad) (k mu : ℝ) (C : Coords → SpCol → SpCol) (applyQ applyQ' : (Nat → Nat → SpCol) → Nat → Nat → SpCol)
    (hQ : ∀ x, ∀ c ∈ box g.L, glob g (applyQ x) c = Qspec g none U k C mu (glob g x) c) (hQ' : ∀ x, ∀ c ∈ box g.L, glob g (applyQ' x) c = Qspec g none U k C (-mu) (glob g x) c)
    (hC : ∀ c ∈ box g.L, ∀ y v, ip y (C c v) = ip (C c y) v) (hC5 : ∀ c ∈ box g.L, ∀ v, C c (spinMul (Γ 5) v) = spinMul (Γ 5) (C c v))
    (chi phi : Nat → Nat → SpCol) (chi' : Coords → SpCol) (hchi : ∀ c, glob g chi c = spinMul (Γ 5) (chi' c)) {c : Coords} (hc : c ∈ box g.L) :
    ∑ nu : Dir, (jcons g U (wilsonMat twisted r) nu chi' (glob g phi) c - jcons g U (wilsonMat twisted r) nu chi' (glob g phi) (tshift g c nu (-1))) =
      I * (ip (chi' c) (glob g (mult_by_Dop twisted r applyQ phi) c) - ip (spinMul (Γ 5) (glob g (mult_by_Dop twisted (1 - r) applyQ' chi) c)) (glob g phi c)) := by
  rw [dop_eq twisted r U k mu C applyQ hQ phi hc, dop_eq twisted (1 - r) U k (-mu) C applyQ' hQ' chi hc]
  simp only [hchi]
  set G := wilsonMat twisted r with hG
  have hd : ip (spinMul (Γ 5) (spinMul ((k : ℂ) • wilsonMat twisted (1 - r) + (((-mu : ℝ) : ℂ) * I) • (Γ 5 * wilsonMat twisted (1 - r))) (spinMul (Γ 5) (chi' c)))) (glob g phi c) =
      ip (chi' c) (spinMul ((k : ℂ) • G + ((mu : ℂ) * I) • (Γ 5 * G)) (glob g phi c)) := by
    rw [spinMul_mul, spinMul_mul, ip_spin]
    congr 2
    rw [conjTranspose_add, conjTranspose_smul, conjTranspose_smul, conjTranspose_mul, g5herm]
    have hGh : Gᴴ = wilsonMat twisted (1 - r) := by rw [hG, ← wil_flip, conjTranspose_conjTranspose]
    rw [hGh]
    have hcc := wil_g5 twisted (1 - r)
    generalize wilsonMat twisted (1 - r) = H at *
    rw [Matrix.mul_add, Matrix.add_mul, Matrix.mul_smul, Matrix.mul_smul, Matrix.smul_mul, Matrix.smul_mul, hcc, ← Matrix.mul_assoc (Γ 5) (Γ 5) H, g5sq, Matrix.one_mul, hcc, ← hcc, Matrix.mul_assoc, g5sq, Matrix.mul_one]
    congr 1
    · simp
    · simp
  have hcl : ip (spinMul (Γ 5) (spinMul (rotMat twisted (1 - r)) (C c (spinMul (rotMat twisted (1 - r)) (spinMul (Γ 5) (chi' c)))))) (glob g phi c) =
      ip (chi' c) (spinMul (rotMat twisted r) (C c (spinMul (rotMat twisted r) (glob g phi c)))) := by
    have e : spinMul (rotMat twisted (1 - r)) (spinMul (Γ 5) (chi' c)) = spinMul (Γ 5) (spinMul (rotMat twisted (1 - r)) (chi' c)) := by
      rw [spinMul_mul, spinMul_mul, rot_g5]
    rw [e, hC5 c hc, spinMul_mul (rotMat twisted (1 - r)), rot_g5, ← spinMul_mul, spinMul_mul (Γ 5) (Γ 5), g5sq, spinMul_one]
    rw [ip_adj, rot_flip, ← hC c hc, ip_adj, rot_flip]
  have hf : ∀ (nu : Dir) (V : M3) (u v : SpCol), ip (spinMul (Γ 5) (spinMul (wilsonMat twisted (1 - r) - γdir nu) (colMul V (spinMul (Γ 5) u)))) v = ip u (spinMul (G + γdir nu) (colMul Vᴴ v)) := by
    intro nu V u v
    rw [colMul_spinMul, spinMul_mul, spinMul_mul, ip_adj, ← ip_col', ← colMul_spinMul]
    congr 3
    rw [conjTranspose_mul, conjTranspose_mul, conjTranspose_sub, g5herm, wil_flip, C30_hermitian.1, Matrix.sub_mul, Matrix.mul_sub, g5anti, hG, wil_g5, ← Matrix.mul_assoc, g5sq, Matrix.one_mul, Matrix.mul_neg,
      ← Matrix.mul_assoc, g5sq, Matrix.one_mul, sub_neg_eq_add]
  have hb : ∀ (nu : Dir) (V : M3) (u v : SpCol), ip (spinMul (Γ 5) (spinMul (wilsonMat twisted (1 - r) + γdir nu) (colMul Vᴴ (spinMul (Γ 5) u)))) v = ip u (spinMul (G - γdir nu) (colMul V v)) := by
    intro nu V u v
    rw [colMul_spinMul, spinMul_mul, spinMul_mul, ip_adj, ← ip_col', ← colMul_spinMul, conjTranspose_conjTranspose]
    congr 3
    rw [conjTranspose_mul, conjTranspose_mul, conjTranspose_add, g5herm, wil_flip, C30_hermitian.1, Matrix.add_mul, Matrix.mul_add, g5anti, hG, wil_g5, ← Matrix.mul_assoc, g5sq, Matrix.one_mul, Matrix.mul_neg,
      ← Matrix.mul_assoc, g5sq, Matrix.one_mul, sub_eq_add_neg]
  rw [spinMul_sub, spinMul_add, sub_ip, add_ip, hd, hcl, ip_sub, ip_add, spinMul_smul, smul_ip, ip_smul, spinMul_sum, sum_ip, ip_sum]
  simp only [spinMul_add, add_ip, ip_add, hf, hb]
  unfold jcons
  simp only [show ∀ nu : Dir, tshift g (tshift g c nu (-1)) nu 1 = c from fun nu => by
    have := Nissa.Paths.tshift_back ok hc nu (-1) (.inr rfl)
    rwa [neg_neg] at this]
  rw [show star (1 / 2 : ℂ) = 1 / 2 by simp]
  simp only [Finset.sum_sub_distrib, Finset.sum_add_distrib, ← Finset.mul_sum]
  ring

/-- the local term of the operator -/
def clovTerm (g : Geo) (ji : Nat) (jq : Quad) (l0 : As2t) (clover_run : Bool) (cSW : ℝ) (conf : Nat → Nat → Quad) (c : Coords) (v : SpCol) : SpCol :=
  if clover_run then scMul (cloverBlock (glob g (clover_term g ji jq l0 cSW conf) c)) v else 0

theorem dopQ_eq (ji : Nat) (jq : Quad) (jv : SpCol) (l0 : As2t) (clover_run : Bool) (cSW : ℝ) (conf : Nat → Nat → Quad) (kappa : ℝ) (anis : Option ℝ) (mass : ℝ) (x : Nat → Nat → SpCol)
    {c : Coords} (hc : c ∈ box g.L) : glob g (dopQ g ji jq jv l0 clover_run cSW conf kappa anis mass x) c =
      Qspec g anis (glob g conf) (1 / (2 * kappa)) (clovTerm g ji jq l0 clover_run cSW conf) mass (glob g x) c := by
  unfold dopQ clovTerm
  cases clover_run
  · exact C40_tmQ ok ji jq jv conf kappa anis mass x hc
  · exact C40_tmclovQ ok ji jq jv conf kappa anis _ mass x hc

theorem clovTerm_herm (ji : Nat) (jq : Quad) (l0 : As2t) (clover_run : Bool) (cSW : ℝ) (conf : Nat → Nat → Quad) {c : Coords} (hc : c ∈ box g.L) (y v : SpCol) :
    ip y (clovTerm g ji jq l0 clover_run cSW conf c v) = ip (clovTerm g ji jq l0 clover_run cSW conf c y) v := by
  unfold clovTerm
  cases clover_run
  · simp [ip]
  · obtain ⟨rk, X, h1, h2, hr, hx, hG⟩ := lxSite ok hc
    simp only [if_true]
    rw [hG, ip_scMul, block_herm (Nissa.Clv.C43_hermitian ok ji jq l0 conf cSW h1 h2)]

omit ok in
theorem clovTerm_g5 (ji : Nat) (jq : Quad) (l0 : As2t) (clover_run : Bool) (cSW : ℝ) (conf : Nat → Nat → Quad) (c : Coords) (v : SpCol) :
    clovTerm g ji jq l0 clover_run cSW conf c (spinMul (Γ 5) v) = spinMul (Γ 5) (clovTerm g ji jq l0 clover_run cSW conf c v) := by
  unfold clovTerm
  cases clover_run
  · simp [spinMul_zero]
  · simp only [if_true]; exact (block_g5 _ _).symm

theorem tshift_in {c : Coords} (hc : c ∈ box g.L) (nu : Dir) : tshift g c nu (-1) ∈ box g.L := tshift_mem_box ok hc nu (-1)

/-- **C63**.  Ward identity.  On any grid of ranks, for any configuration, hopping parameter, mass and clover coefficient, with the reversion (as for all sides of handcuffs asked with
a positive matrix) the divergence of the conserved current at each site is the difference of the two contact terms: the current is conserved away from the sources of the
two propagators.  The backward propagator must have the opposite `r` (and so the opposite sign of the mass, `/repo/projects/ib/ib.cpp:267`), as enforced
in the program. -/
theorem C63_ward (ji : Nat) (jq : Quad) (jv : SpCol) (l0 : As2t) (twisted : Bool) (nso_spi n : Nat) (hs : nso_spi = 4 ∨ nso_spi = 1) (clover_run : Bool) (cSW : ℝ) (conf : Nat → Nat → Quad)
    (kappa mass : ℝ) (ig : Fin 19) (r : Fin 2) (Qbw Qfw : QProp) {c : Coords} (hc : c ∈ box g.L) :
    let J := glob g (conserved_vector_current_mel g ji jq jv twisted nso_spi n conf (baseGamma ig) r true Qbw Qfw)
    let D := fun (r : Fin 2) (mass : ℝ) (x : Nat → Nat → SpCol) => glob g (mult_by_Dop twisted r (dopQ g ji jq jv l0 clover_run cSW conf kappa none mass) x) c
    ∑ nu : Dir, (J c nu - J (tshift g c nu (-1)) nu) = I * ∑ j ∈ soIdx nso_spi, ∑ b : Fin n, ∑ i : Fin 4, (Γ ig * Γ 5) j i *
      (ip (spinMul (Γ 5) (glob g (Qbw (so_sp_col_ind n j b)) c)) (D r mass (Qfw (so_sp_col_ind n i b))) -
        ip (spinMul (Γ 5) (D (1 - r) (-mass) (Qbw (so_sp_col_ind n j b)))) (glob g (Qfw (so_sp_col_ind n i b)) c)) := by
  intro J D
  have hJ : ∀ d ∈ box g.L, ∀ nu, J d nu = _ := fun d hd nu => C63_conserved_current ok ji jq jv twisted nso_spi n hs conf ig r true Qbw Qfw hd nu
  rw [Finset.sum_congr rfl fun nu _ => by rw [hJ c hc, hJ _ (tshift_in ok hc nu)]]
  simp only [← Finset.sum_sub_distrib, ← mul_sub]
  rw [Finset.sum_comm, Finset.mul_sum]
  refine Finset.sum_congr rfl fun j _ => ?_
  rw [Finset.sum_comm, Finset.mul_sum]
  refine Finset.sum_congr rfl fun b _ => ?_
  rw [Finset.sum_comm, Finset.mul_sum]
  refine Finset.sum_congr rfl fun i _ => ?_
  rw [← Finset.mul_sum, mul_left_comm]
  simp only [if_true]
  congr 1
  have := ward ok twisted r (glob g conf) (1 / (2 * kappa)) mass (clovTerm g ji jq l0 clover_run cSW conf) (dopQ g ji jq jv l0 clover_run cSW conf kappa none mass)
    (dopQ g ji jq jv l0 clover_run cSW conf kappa none (-mass)) (fun x c hc => dopQ_eq ok ji jq jv l0 clover_run cSW conf kappa none mass x hc)
    (fun x c hc => dopQ_eq ok ji jq jv l0 clover_run cSW conf kappa none (-mass) x hc) (fun c hc y v => clovTerm_herm ok ji jq l0 clover_run cSW conf hc y v)
    (fun c _ v => clovTerm_g5 ji jq l0 clover_run cSW conf c v) (Qbw (so_sp_col_ind n j b)) (Qfw (so_sp_col_ind n i b)) (fun d => rev true (glob g (Qbw (so_sp_col_ind n j b)) d))
    (fun d => by unfold rev; rw [if_pos rfl, g5_g5]) hc
  exact this

/-- **C63**.  The same without the reversion: the backward field multiplied by `gamma5` takes the place of the propagator. -/
theorem C63_ward_norevert (ji : Nat) (jq : Quad) (jv : SpCol) (l0 : As2t) (twisted : Bool) (nso_spi n : Nat) (hs : nso_spi = 4 ∨ nso_spi = 1) (clover_run : Bool) (cSW : ℝ)
    (conf : Nat → Nat → Quad) (kappa mass : ℝ) (ig : Fin 19) (r : Fin 2) (Qbw Qfw : QProp) {c : Coords} (hc : c ∈ box g.L) :
    let J := glob g (conserved_vector_current_mel g ji jq jv twisted nso_spi n conf (baseGamma ig) r false Qbw Qfw)
    let D := fun (r : Fin 2) (mass : ℝ) (x : Nat → Nat → SpCol) => glob g (mult_by_Dop twisted r (dopQ g ji jq jv l0 clover_run cSW conf kappa none mass) x) c
    ∑ nu : Dir, (J c nu - J (tshift g c nu (-1)) nu) = I * ∑ j ∈ soIdx nso_spi, ∑ b : Fin n, ∑ i : Fin 4, Γ ig j i *
      (ip (glob g (Qbw (so_sp_col_ind n j b)) c) (D r mass (Qfw (so_sp_col_ind n i b))) -
        ip (spinMul (Γ 5) (D (1 - r) (-mass) (fun rk ivol => spinMul (Γ 5) (Qbw (so_sp_col_ind n j b) rk ivol)))) (glob g (Qfw (so_sp_col_ind n i b)) c)) := by
  intro J D
  have hJ : ∀ d ∈ box g.L, ∀ nu, J d nu = _ := fun d hd nu => C63_conserved_current ok ji jq jv twisted nso_spi n hs conf ig r false Qbw Qfw hd nu
  rw [Finset.sum_congr rfl fun nu _ => by rw [hJ c hc, hJ _ (tshift_in ok hc nu)]]
  simp only [← Finset.sum_sub_distrib, ← mul_sub]
  rw [Finset.sum_comm, Finset.mul_sum]
  refine Finset.sum_congr rfl fun j _ => ?_
  rw [Finset.sum_comm, Finset.mul_sum]
  refine Finset.sum_congr rfl fun b _ => ?_
  rw [Finset.sum_comm, Finset.mul_sum]
  refine Finset.sum_congr rfl fun i _ => ?_
  rw [← Finset.mul_sum, mul_left_comm, if_neg Bool.false_ne_true, Matrix.mul_one]
  congr 1
  have := ward ok twisted r (glob g conf) (1 / (2 * kappa)) mass (clovTerm g ji jq l0 clover_run cSW conf) (dopQ g ji jq jv l0 clover_run cSW conf kappa none mass)
    (dopQ g ji jq jv l0 clover_run cSW conf kappa none (-mass)) (fun x c hc => dopQ_eq ok ji jq jv l0 clover_run cSW conf kappa none mass x hc)
    (fun x c hc => dopQ_eq ok ji jq jv l0 clover_run cSW conf kappa none (-mass) x hc) (fun c hc y v => clovTerm_herm ok ji jq l0 clover_run cSW conf hc y v)
    (fun c _ v => clovTerm_g5 ji jq l0 clover_run cSW conf c v) (fun rk ivol => spinMul (Γ 5) (Qbw (so_sp_col_ind n j b) rk ivol)) (Qfw (so_sp_col_ind n i b))
    (fun d => rev false (glob g (Qbw (so_sp_col_ind n j b)) d)) (fun d => rfl) hc
  exact this

end

end

end Nissa.Contr
