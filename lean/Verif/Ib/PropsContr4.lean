import Verif.Ib.PropsContr1
import Verif.Dirac.PropsEoPrecCg
import Verif.Dirac.PropsClover

/-! # C63: matrix elements of the currents -/

set_option linter.all false

namespace Nissa.Contr
open Nissa.Lx Nissa.Sten Nissa.Su3f Nissa.Gauge Nissa.Gamma Nissa.StD Nissa.Wilson Nissa.EoP Matrix Complex

noncomputable section

/-! ### Specification -/

/-- a field multiplied by `gamma5` if asked -/
def rev (b : Bool) (v : SpCol) : SpCol := if b then spinMul (Γ 5) v else v

/-- the local vector current between two fields -/
def jloc (mu : Dir) (psi phi : Coords → SpCol) (c : Coords) : ℂ := ip (psi c) (spinMul (γdir mu) (phi c))

/-- the point-split vector current between two fields: `G` is the matrix of the Wilson term -/
def jcons (g : Geo) (U : Coords → Quad) (G : Matrix (Fin 4) (Fin 4) ℂ) (mu : Dir) (psi phi : Coords → SpCol) (c : Coords) : ℂ :=
  -(I / 2) * ip (psi c) (spinMul (G - γdir mu) (colMul (U c mu) (phi (tshift g c mu 1)))) +
    I / 2 * ip (psi (tshift g c mu 1)) (spinMul (G + γdir mu) (colMul (U c mu)ᴴ (phi c)))

/-- the matrix of the Wilson term in the basis of the propagators: the physical one for twisted mass, `-i tau3 gamma5` -/
def wilsonMat (twisted : Bool) (r : Fin 2) : Matrix (Fin 4) (Fin 4) ℂ := if twisted then (-(I * tau3 r)) • Γ 5 else 1

/-- the components of the sources -/
def soIdx (nso_spi : Nat) : Finset (Fin 4) := Finset.univ.filter fun j => j.val < nso_spi

/-! ### Matrices -/

theorem diracSpinColor_eq (m : DiracMatr ℂ) (v : SpCol) : diracSpinColor m v = spinMul (dense m) v := by
  funext i
  unfold diracSpinColor spinMul dense
  simp [ite_smul, Finset.sum_ite_eq']

theorem diracSumm_eq (out : SpCol) (m : DiracMatr ℂ) (v : SpCol) : diracSumm' out m v = out + spinMul (dense m) v := by
  rw [← diracSpinColor_eq]; rfl

theorem diracSubt_eq (out : SpCol) (m : DiracMatr ℂ) (v : SpCol) : diracSubt' out m v = out - spinMul (dense m) v := by
  rw [← diracSpinColor_eq]; rfl

theorem gammaMu_eq (revert : Bool) (mu : Dir) : dense (gammaMu revert mu) = (if revert then Γ 5 else 1) * γdir mu := by
  unfold gammaMu
  cases revert
  · rw [if_neg (by decide), if_neg (by decide), Matrix.one_mul]
  · rw [if_pos rfl, if_pos rfl, (C30_sparse_ops _ _ 0 0).1]

theorem gamma4_eq (twisted revert : Bool) (r : Fin 2) : dense (gamma4 twisted revert r) = (if revert then Γ 5 else 1) * wilsonMat twisted r := by
  have h : dense (if twisted then diracProdIdouble (baseGamma 5) (-tau3 r) else baseGamma 0) = wilsonMat twisted r := by
    unfold wilsonMat
    cases twisted
    · rw [if_neg (by decide), if_neg (by decide)]; exact C30_products.1
    · rw [if_pos rfl, if_pos rfl, (C30_sparse_ops _ (baseGamma 0) 0 _).2.2.2.1]
      rw [show I * ((-tau3 r : ℝ) : ℂ) = -(I * tau3 r) by push_cast; ring]
  unfold gamma4
  simp only
  cases revert
  · rw [if_neg Bool.false_ne_true, if_neg Bool.false_ne_true, Matrix.one_mul, h]
  · rw [if_pos rfl, if_pos rfl, (C30_sparse_ops _ _ 0 0).1, h]

/-- the matrix at the source -/
theorem sourceGamma_eq (ig : Fin 19) (revert : Bool) : dense (sourceGamma (baseGamma ig) revert) = Γ ig * (if revert then Γ 5 else 1) := by
  unfold sourceGamma
  cases revert
  · rw [if_neg (by decide), if_neg (by decide), Matrix.mul_one]
  · rw [if_pos rfl, if_pos rfl, (C30_sparse_ops _ _ 0 0).1]

theorem rev_ip (b : Bool) (M : Matrix (Fin 4) (Fin 4) ℂ) (u v : SpCol) : ip u (spinMul ((if b then Γ 5 else 1) * M) v) = ip (rev b u) (spinMul M v) := by
  unfold rev
  cases b
  · simp
  · rw [if_pos rfl, if_pos rfl, ← spinMul_mul, ip_spin, g5herm]

theorem soSpins_sum (nso_spi n : Nat) (hs : nso_spi = 4 ∨ nso_spi = 1) (f : Fin 4 → Nat → ℂ) :
    ((soSpins nso_spi ×ˢ List.range n).map fun x => f x.1 x.2).sum = ∑ j ∈ soIdx nso_spi, ∑ b : Fin n, f j b := by
  have e : ∀ l : List (Fin 4), ((l ×ˢ List.range n).map fun x => f x.1 x.2).sum = (l.map fun j => ∑ b : Fin n, f j b).sum := by
    intro l
    induction l with
    | nil => rfl
    | cons a l ih =>
      rw [List.product_cons, List.map_append, List.sum_append, ih, List.map_map, List.map_cons, List.sum_cons]
      congr 1
      exact sum_range_fin n (f a)
  rw [e]
  unfold soIdx
  rcases hs with h | h
  · subst h
    rw [soSpins_four, sum_finRange]
    refine Finset.sum_congr ?_ fun _ _ => rfl
    ext j; simp
  · subst h
    rw [soSpins_one, List.map_singleton, List.sum_singleton]
    rw [show (Finset.univ.filter fun j : Fin 4 => j.val < 1) = {0} by decide, Finset.sum_singleton]

theorem idouble_eq (a b : ℂ) (x : ℝ) : summProdIdouble a b x = a + I * x * b := by
  apply Complex.ext <;> simp [summProdIdouble] <;> ring

section
variable {g : Geo} (ok : g.Ok)
include ok

/-- **C63**.  The local current at a site: the matrix element of `gamma_mu` between the propagators (`gamma5 gamma_mu` when reverting), traced with the source
matrix. -/
theorem C63_vector_current (nso_spi n : Nat) (hs : nso_spi = 4 ∨ nso_spi = 1) (ig : Fin 19) (revert : Bool) (Qbw Qfw : QProp) (c : Coords) (mu : Dir) :
    glob g (vector_current_mel nso_spi n (baseGamma ig) revert Qbw Qfw) c mu =
      ∑ i ∈ soIdx nso_spi, ∑ b : Fin n, ∑ j : Fin 4, (Γ ig * if revert then Γ 5 else 1 : Matrix (Fin 4) (Fin 4) ℂ) i j *
        jloc mu (fun d => rev revert (glob g (Qbw (so_sp_col_ind n j b)) d)) (glob g (Qfw (so_sp_col_ind n i b))) c := by
  rw [← sourceGamma_eq]
  unfold glob vector_current_mel
  simp only
  rw [foldl_add', zero_add, soSpins_sum nso_spi n hs (fun j b => spincolor_scalar_prod (Qbw (so_sp_col_ind n ((sourceGamma (baseGamma ig) revert).pos j) b) _ _)
    (diracSpinColor (gammaMu revert mu) (Qfw (so_sp_col_ind n j b) _ _)) * (sourceGamma (baseGamma ig) revert).entr j)]
  refine Finset.sum_congr rfl fun i _ => Finset.sum_congr rfl fun b _ => ?_
  rw [dense_sum, mul_comm, diracSpinColor_eq, gammaMu_eq]
  congr 1
  exact rev_ip revert _ _ _

/-- **C63**.  The conserved current at a site, on any grid of ranks: the point-split current with the Wilson term of the basis of the propagators; the source matrix
is transposed with respect to the local current. -/
theorem C63_conserved_current (ji : Nat) (jq : Quad) (jv : SpCol) (twisted : Bool) (nso_spi n : Nat) (hs : nso_spi = 4 ∨ nso_spi = 1) (conf : Nat → Nat → Quad) (ig : Fin 19) (r : Fin 2)
    (revert : Bool) (Qbw Qfw : QProp) {c : Coords} (hc : c ∈ box g.L) (mu : Dir) :
    glob g (conserved_vector_current_mel g ji jq jv twisted nso_spi n conf (baseGamma ig) r revert Qbw Qfw) c mu =
      ∑ j ∈ soIdx nso_spi, ∑ b : Fin n, ∑ i : Fin 4, (Γ ig * if revert then Γ 5 else 1 : Matrix (Fin 4) (Fin 4) ℂ) j i *
        jcons g (glob g conf) (wilsonMat twisted r) mu (fun d => rev revert (glob g (Qbw (so_sp_col_ind n j b)) d)) (glob g (Qfw (so_sp_col_ind n i b))) c := by
  obtain ⟨rk, X, h1, h2, hr, hx, hG⟩ := lxSite ok hc
  rw [hG, ← sourceGamma_eq]
  unfold conserved_vector_current_mel
  simp only [mem_here ok jq conf hr h2 hx, mem_up ok jv ji _ hr h2 hx, mem_here ok jv _ hr h2 hx, idouble_eq, add_assoc]
  rw [foldl_add', zero_add, soSpins_sum nso_spi n hs (fun j b => I * ((-0.5 : ℝ) : ℂ) * (spincolor_scalar_prod (glob g (Qbw (so_sp_col_ind n j b)) c)
      (diracSubt' (diracSpinColor (gamma4 twisted revert r) fun id => glob g conf c mu *ᵥ glob g (Qfw (so_sp_col_ind n ((sourceGamma (baseGamma ig) revert).pos j) b)) (tshift g c mu 1) id)
        (gammaMu revert mu) fun id => glob g conf c mu *ᵥ glob g (Qfw (so_sp_col_ind n ((sourceGamma (baseGamma ig) revert).pos j) b)) (tshift g c mu 1) id) * (sourceGamma (baseGamma ig) revert).entr j) +
    I * ((0.5 : ℝ) : ℂ) * (spincolor_scalar_prod (glob g (Qbw (so_sp_col_ind n j b)) (tshift g c mu 1))
      (diracSumm' (diracSpinColor (gamma4 twisted revert r) fun id => (glob g conf c mu)ᴴ *ᵥ glob g (Qfw (so_sp_col_ind n ((sourceGamma (baseGamma ig) revert).pos j) b)) c id)
        (gammaMu revert mu) fun id => (glob g conf c mu)ᴴ *ᵥ glob g (Qfw (so_sp_col_ind n ((sourceGamma (baseGamma ig) revert).pos j) b)) c id) * (sourceGamma (baseGamma ig) revert).entr j))]
  refine Finset.sum_congr rfl fun j _ => Finset.sum_congr rfl fun b _ => ?_
  rw [dense_sum]
  unfold jcons
  rw [diracSubt_eq, diracSumm_eq, diracSpinColor_eq, diracSpinColor_eq, gamma4_eq, gammaMu_eq]
  have e1 : ∀ v : SpCol, spinMul ((if revert then Γ 5 else 1) * wilsonMat twisted r) v - spinMul ((if revert then Γ 5 else 1) * γdir mu) v =
      spinMul ((if revert then Γ 5 else 1) * (wilsonMat twisted r - γdir mu)) v := by
    intro v
    rw [Matrix.mul_sub]
    funext i
    simp [spinMul, sub_smul, Finset.sum_sub_distrib]
  have e2 : ∀ v : SpCol, spinMul ((if revert then Γ 5 else 1) * wilsonMat twisted r) v + spinMul ((if revert then Γ 5 else 1) * γdir mu) v =
      spinMul ((if revert then Γ 5 else 1) * (wilsonMat twisted r + γdir mu)) v := by
    intro v
    rw [Matrix.mul_add]
    funext i
    simp [spinMul, add_smul, Finset.sum_add_distrib]
  rw [e1, e2]
  rw [show ∀ u v, spincolor_scalar_prod u v = ip u v from fun _ _ => rfl, show ∀ u v, spincolor_scalar_prod u v = ip u v from fun _ _ => rfl, rev_ip, rev_ip]
  rw [show ∀ (V : M3) (v : SpCol), (fun id => V *ᵥ v id) = colMul V v from fun _ _ => rfl, show ∀ (V : M3) (v : SpCol), (fun id => V *ᵥ v id) = colMul V v from fun _ _ => rfl]
  push_cast
  ring

end

end

end Nissa.Contr
