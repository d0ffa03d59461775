import Verif.Dirac.Wilson

/-! # C40: the Wilson operators -/

set_option linter.all false

namespace Nissa.Wilson
open Nissa.Lx Nissa.Sten Nissa.Su3f Nissa.Gauge Nissa.Gamma Nissa.StD Matrix Complex

theorem anisFix_eq (anis : Option ℝ) (mu : Dir) (c : Col) : anisFix anis mu c = (weight anis mu : ℂ) • c := by
  unfold anisFix weight
  cases anis with
  | none => by_cases h : mu = 0 <;> simp [h]
  | some a =>
    by_cases h : mu = 0
    · subst h; simp
    · have : 0 < mu := Fin.pos_of_ne_zero h
      simp [h, this]

theorem fix_eq (anis : Option ℝ) (mu : Dir) (h : mu ≠ 0) (c : Col) : maybeFixAnis anis c = (weight anis mu : ℂ) • c := by
  rw [← anisFix_eq]
  unfold maybeFixAnis anisFix
  have : 0 < mu := Fin.pos_of_ne_zero h
  cases anis <;> simp [this]

theorem hopStep_eq (anis : Option ℝ) (here : Quad) (dw : Dir → Quad) (up dn : Dir → SpCol) (out : SpCol) (mu : Dir) :
    hopStep anis here dw up dn out mu = out + (weight anis mu : ℂ) • (spinMul (1 - γdir mu) (colMul (here mu) (up mu)) +
      spinMul (1 + γdir mu) (colMul (dw mu mu)ᴴ (dn mu))) := by
  unfold hopStep
  simp only [anisFix_eq]
  generalize (weight anis mu : ℂ) = w
  generalize here mu = A
  generalize (dw mu mu)ᴴ = B
  generalize up mu = u
  generalize dn mu = d
  fin_cases mu
  · show bwdReco 0 (fwdReco 0 out _ _) _ _ = out + w • (spinMul (1 - γdir 0) _ + spinMul (1 + γdir 0) _)
    rw [g0]
    ext i c
    fin_cases i <;>
    · simp [bwdReco, fwdReco, fwdProj, bwdProj, spinMul, colMul, Fin.sum_univ_four, mulVec_add, mulVec_sub]
      ring
  · show bwdReco 1 (fwdReco 1 out _ _) _ _ = out + w • (spinMul (1 - γdir 1) _ + spinMul (1 + γdir 1) _)
    rw [g1]
    ext i c
    fin_cases i <;>
    · simp [bwdReco, fwdReco, fwdProj, bwdProj, spinMul, colMul, Fin.sum_univ_four, mulVec_add, mulVec_sub, color_isumm, color_isubt, mulVec_smul]
      ring_nf
      try simp only [I_sq]
      try ring
  · show bwdReco 2 (fwdReco 2 out _ _) _ _ = out + w • (spinMul (1 - γdir 2) _ + spinMul (1 + γdir 2) _)
    rw [g2]
    ext i c
    fin_cases i <;>
    · simp [bwdReco, fwdReco, fwdProj, bwdProj, spinMul, colMul, Fin.sum_univ_four, mulVec_add, mulVec_sub]
      ring
  · show bwdReco 3 (fwdReco 3 out _ _) _ _ = out + w • (spinMul (1 - γdir 3) _ + spinMul (1 + γdir 3) _)
    rw [g3]
    ext i c
    fin_cases i <;>
    · simp [bwdReco, fwdReco, fwdProj, bwdProj, spinMul, colMul, Fin.sum_univ_four, mulVec_add, mulVec_sub, color_isumm, color_isubt, mulVec_smul]
      ring_nf
      try simp only [I_sq]
      try ring

theorem hopFold_eq (anis : Option ℝ) (here : Quad) (dw : Dir → Quad) (up dn : Dir → SpCol) :
    dirs.foldl (hopStep anis here dw up dn) 0 = ∑ mu : Dir, (weight anis mu : ℂ) • (spinMul (1 - γdir mu) (colMul (here mu) (up mu)) +
      spinMul (1 + γdir mu) (colMul (dw mu mu)ᴴ (dn mu))) := by
  simp only [dirs, List.foldl, hopStep_eq, Fin.sum_univ_four, zero_add]

theorem tmclovHop_eq (anis : Option ℝ) (here : Quad) (dw : Dir → Quad) (up dn : Dir → SpCol) :
    tmclovHop anis here dw up dn = dirs.foldl (hopStep anis here dw up dn) 0 := by
  have h0 : ∀ c, anisFix anis 0 c = c := by intro c; cases anis <;> simp [anisFix]
  have h1 : ∀ c, anisFix anis 1 c = maybeFixAnis anis c := by intro c; cases anis <;> simp [anisFix, maybeFixAnis]
  have h2 : ∀ c, anisFix anis 2 c = maybeFixAnis anis c := by intro c; cases anis <;> simp [anisFix, maybeFixAnis]
  have h3 : ∀ c, anisFix anis 3 c = maybeFixAnis anis c := by intro c; cases anis <;> simp [anisFix, maybeFixAnis]
  unfold tmclovHop dirs
  simp only [List.foldl, hopStep, h0, h1, h2, h3, bwdReco, fwdReco, fwdProj, bwdProj]
  ext i c
  fin_cases i <;> simp

theorem final_eq (kcf mass s : ℝ) (o i : ℂ) : tmQFinal kcf mass s o i = s * (kcf * i - 1 / 2 * o) + mass * I * i := by
  apply Complex.ext <;> simp [tmQFinal] <;> ring

theorem clovFinal_eq (kcf mu s : ℝ) (cl t i : ℂ) : tmclovQFinal kcf mu s cl t i = s * (kcf * i - 1 / 2 * t + cl) + mu * I * i := by
  apply Complex.ext <;> simp [tmclovQFinal] <;> ring

theorem gamma5_apply (v : SpCol) (i : Fin 4) : spinMul (Γ 5) v i = (((if (i : Nat) < 2 then 1 else -1 : ℝ)) : ℂ) • v i := by
  rw [g5]
  fin_cases i <;> simp [spinMul, Fin.sum_univ_four]

theorem clover_eq (Cl : Clov) (v : SpCol) : point_chromo_to_spincolor Cl v = scMul (cloverBlock Cl) v := by
  ext i c
  fin_cases i <;> simp [point_chromo_to_spincolor, scMul, cloverBlock, Fin.sum_univ_four, neg_mulVec, sub_eq_add_neg]

section
variable {g : Geo} (ok : g.Ok)
include ok

/-- C40: `apply_tmQ` on any grid of ranks: `gamma5 (1/(2 kappa) - wilson/2) + i mass` at every site of the global lattice -/
theorem C40_tmQ (ji : Nat) (jq : Quad) (jv : SpCol) (conf : Nat → Nat → Quad) (kappa : ℝ) (anis : Option ℝ) (mass : ℝ) (inp : Nat → Nat → SpCol)
    {c : Coords} (hc : c ∈ box g.L) :
    glob g (apply_tmQ g ji jq jv conf kappa anis mass inp) c =
      Qspec g anis (glob g conf) (1 / (2 * kappa)) (fun _ _ => 0) mass (glob g inp) c := by
  obtain ⟨rk, X, h1, h2, hr, hx, hG⟩ := lxSite ok hc
  rw [hG]
  unfold apply_tmQ
  simp only [hopFold_eq]
  rw [mem_here ok jq conf hr h2 hx, mem_here ok jv inp hr h2 hx]
  simp only [mem_dw ok jq ji conf hr h2 hx, mem_up ok jv ji inp hr h2 hx, mem_dw ok jv ji inp hr h2 hx]
  ext i a
  rw [final_eq]
  unfold Qspec wilson
  rw [Pi.add_apply, Pi.add_apply, gamma5_apply]
  simp only [Pi.smul_apply, Pi.add_apply, Pi.sub_apply, smul_eq_mul, Pi.zero_apply]
  push_cast
  ring

/-- C40: `apply_tmclovQ` on any grid of ranks -/
theorem C40_tmclovQ (ji : Nat) (jq : Quad) (jv : SpCol) (conf : Nat → Nat → Quad) (kappa : ℝ) (anis : Option ℝ) (Cl : Nat → Nat → Clov) (mu : ℝ)
    (inp : Nat → Nat → SpCol) {c : Coords} (hc : c ∈ box g.L) :
    glob g (apply_tmclovQ g ji jq jv conf kappa anis Cl mu inp) c =
      Qspec g anis (glob g conf) (1 / (2 * kappa)) (fun c => scMul (cloverBlock (glob g Cl c))) mu (glob g inp) c := by
  obtain ⟨rk, X, h1, h2, hr, hx, hG⟩ := lxSite ok hc
  rw [hG]
  unfold apply_tmclovQ
  simp only [tmclovHop_eq, hopFold_eq, clover_eq]
  rw [mem_here ok jq conf hr h2 hx, mem_here ok jv inp hr h2 hx]
  simp only [mem_dw ok jq ji conf hr h2 hx, mem_up ok jv ji inp hr h2 hx, mem_dw ok jv ji inp hr h2 hx]
  ext i a
  rw [clovFinal_eq]
  unfold Qspec wilson
  rw [Pi.add_apply, Pi.add_apply, gamma5_apply]
  simp only [Pi.smul_apply, Pi.add_apply, Pi.sub_apply, smul_eq_mul, Pi.zero_apply, hG Cl]

end

/-! ### Algebra of spin and colour matrices -/

theorem spinMul_add (M : Matrix (Fin 4) (Fin 4) ℂ) (u v : SpCol) : spinMul M (u + v) = spinMul M u + spinMul M v := by
  funext i
  simp [spinMul, Finset.sum_add_distrib]
theorem spinMul_sub (M : Matrix (Fin 4) (Fin 4) ℂ) (u v : SpCol) : spinMul M (u - v) = spinMul M u - spinMul M v := by
  funext i
  simp [spinMul, Finset.sum_sub_distrib, smul_sub]
theorem spinMul_smul (M : Matrix (Fin 4) (Fin 4) ℂ) (a : ℂ) (v : SpCol) : spinMul M (a • v) = a • spinMul M v := by
  funext i
  simp only [spinMul, Pi.smul_apply, Finset.smul_sum]
  exact Finset.sum_congr rfl fun j _ => smul_comm _ _ _
theorem spinMul_zero (M : Matrix (Fin 4) (Fin 4) ℂ) : spinMul M 0 = 0 := by
  funext i; simp [spinMul]
theorem spinMul_sum {ι : Type} (s : Finset ι) (M : Matrix (Fin 4) (Fin 4) ℂ) (f : ι → SpCol) : spinMul M (∑ k ∈ s, f k) = ∑ k ∈ s, spinMul M (f k) := by
  classical
  induction s using Finset.induction with
  | empty => simp [spinMul_zero]
  | insert a s ha ih => rw [Finset.sum_insert ha, Finset.sum_insert ha, spinMul_add, ih]
theorem spinMul_mul (M N : Matrix (Fin 4) (Fin 4) ℂ) (v : SpCol) : spinMul M (spinMul N v) = spinMul (M * N) v := by
  funext i
  simp only [spinMul, Matrix.mul_apply, Finset.smul_sum, Finset.sum_smul]
  rw [Finset.sum_comm]
  exact Finset.sum_congr rfl fun j _ => Finset.sum_congr rfl fun k _ => by rw [smul_smul]
theorem spinMul_one (v : SpCol) : spinMul 1 v = v := by
  funext i; simp [spinMul, Matrix.one_apply]
theorem colMul_spinMul (U : M3) (M : Matrix (Fin 4) (Fin 4) ℂ) (v : SpCol) : colMul U (spinMul M v) = spinMul M (colMul U v) := by
  funext i
  simp only [colMul, spinMul]
  rw [mulVec_sum]
  exact Finset.sum_congr rfl fun j _ => mulVec_smul _ _ _
theorem colMul_colMul (U V : M3) (v : SpCol) : colMul U (colMul V v) = colMul (U * V) v := by
  funext i; simp [colMul, mulVec_mulVec]
theorem colMul_add (U : M3) (u v : SpCol) : colMul U (u + v) = colMul U u + colMul U v := by
  funext i; simp [colMul, mulVec_add]
theorem colMul_smul (U : M3) (a : ℂ) (v : SpCol) : colMul U (a • v) = a • colMul U v := by
  funext i; simp [colMul, mulVec_smul]
theorem colMul_sum {ι : Type} (s : Finset ι) (U : M3) (f : ι → SpCol) : colMul U (∑ k ∈ s, f k) = ∑ k ∈ s, colMul U (f k) := by
  funext i
  simp only [colMul, Finset.sum_apply]
  rw [mulVec_sum]

/-- scalar product at a site -/
noncomputable def ip (y x : SpCol) : ℂ := ∑ i, star (y i) ⬝ᵥ x i

theorem ip_add (y u v : SpCol) : ip y (u + v) = ip y u + ip y v := by
  simp [ip, dotProduct_add, Finset.sum_add_distrib]
theorem ip_sub (y u v : SpCol) : ip y (u - v) = ip y u - ip y v := by
  simp [ip, dotProduct_sub, Finset.sum_sub_distrib]
theorem ip_smul (a : ℂ) (y v : SpCol) : ip y (a • v) = a * ip y v := by
  simp [ip, dotProduct_smul, Finset.mul_sum]
theorem add_ip (y z u : SpCol) : ip (y + z) u = ip y u + ip z u := by
  simp [ip, add_dotProduct, Finset.sum_add_distrib]
theorem sub_ip (y z u : SpCol) : ip (y - z) u = ip y u - ip z u := by
  simp [ip, sub_dotProduct, Finset.sum_sub_distrib]
theorem smul_ip (a : ℂ) (y v : SpCol) : ip (a • y) v = star a * ip y v := by
  simp [ip, smul_dotProduct, Finset.mul_sum]
theorem ip_sum {ι : Type} (s : Finset ι) (y : SpCol) (f : ι → SpCol) : ip y (∑ k ∈ s, f k) = ∑ k ∈ s, ip y (f k) := by
  classical
  induction s using Finset.induction with
  | empty => simp [ip]
  | insert a s ha ih => rw [Finset.sum_insert ha, Finset.sum_insert ha, ip_add, ih]
theorem sum_ip {ι : Type} (s : Finset ι) (y : SpCol) (f : ι → SpCol) : ip (∑ k ∈ s, f k) y = ∑ k ∈ s, ip (f k) y := by
  classical
  induction s using Finset.induction with
  | empty => simp [ip]
  | insert a s ha ih => rw [Finset.sum_insert ha, Finset.sum_insert ha, add_ip, ih]
theorem ip_col (U : M3) (y v : SpCol) : ip y (colMul U v) = ip (colMul Uᴴ y) v := by
  unfold ip colMul
  refine Finset.sum_congr rfl fun i _ => ?_
  rw [star_mulVec, conjTranspose_conjTranspose, dotProduct_mulVec]
theorem ip_spin (M : Matrix (Fin 4) (Fin 4) ℂ) (y v : SpCol) : ip y (spinMul M v) = ip (spinMul Mᴴ y) v := by
  unfold ip spinMul
  simp only [dotProduct_sum, dotProduct_smul, star_sum, sum_dotProduct, star_smul, smul_dotProduct, smul_eq_mul, conjTranspose_apply, star_star]
  rw [Finset.sum_comm]
theorem ip_scMul (B : Fin 4 → Fin 4 → M3) (y v : SpCol) : ip y (scMul B v) = ip (scMul (fun i j => (B j i)ᴴ) y) v := by
  unfold ip scMul
  simp only [dotProduct_sum, star_sum, sum_dotProduct, star_mulVec, conjTranspose_conjTranspose, dotProduct_mulVec]
  rw [Finset.sum_comm]

theorem ip_star (y v : SpCol) : star (ip y v) = ip v y := by
  unfold ip
  rw [star_sum]
  exact Finset.sum_congr rfl fun i _ => by simp [dotProduct, star_sum, mul_comm]

theorem dotS_eq (s : Finset Coords) (y x : Coords → SpCol) : dotS s y x = ∑ c ∈ s, ip (y c) (x c) := rfl

end Nissa.Wilson
