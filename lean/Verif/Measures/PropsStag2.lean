import Verif.Measures.PropsStag
import Verif.Measures.SpinTaste

/-! # C62: adjoint, gauge covariance and free limit of the staggered operators -/

set_option linter.all false

namespace Nissa.Stag
open Nissa.Lx Nissa.Sten Nissa.Su3f Nissa.Gauge Nissa.StD Nissa.Back Matrix

noncomputable section

/-- the operator `spin` times `taste` on the global lattice -/
def stagOp (g : Geo) (U : Coords → Quad) (spin taste : Int) (x : Coords → Col) : Coords → Col := fun c =>
  sgn (bits (form_stag_op_pattern spin taste)) c • shiftOp g U (bits (xor4 spin taste)) x c

section
variable {g : Geo} (ok : g.Ok)
include ok

/-! ### Linearity and adjoint -/

omit ok in
theorem symShift_add (U : Coords → Quad) (mu : Dir) (x y : Coords → Col) : symShift g U mu (x + y) = symShift g U mu x + symShift g U mu y := by
  funext c
  simp only [symShift, Pi.add_apply, mulVec_add, ← smul_add]
  congr 1
  abel

omit ok in
theorem symShift_smul (U : Coords → Quad) (mu : Dir) (a : ℝ) (x : Coords → Col) : symShift g U mu (a • x) = a • symShift g U mu x := by
  funext c
  simp only [symShift, Pi.smul_apply, mulVec_smul, ← smul_add]
  rw [smul_comm]

omit ok in
theorem dot_list_sum (s : Finset Coords) (y : Coords → Col) (l : List (Coords → Col)) : dot s y l.sum = (l.map fun x => dot s y x).sum := by
  induction l with
  | nil => simp [dot]
  | cons a l ih => rw [List.sum_cons, dot_add, ih]; simp

omit ok in
theorem list_sum_dot (s : Finset Coords) (x : Coords → Col) (l : List (Coords → Col)) : dot s l.sum x = (l.map fun y => dot s y x).sum := by
  induction l with
  | nil => simp [dot]
  | cons a l ih => rw [List.sum_cons, add_dot, ih]; simp

theorem symShift_hermitian (U : Coords → Quad) (mu : Dir) (y x : Coords → Col) :
    dot (box g.L) y (symShift g U mu x) = dot (box g.L) (symShift g U mu y) x := by
  unfold dot symShift
  have e1 : ∀ c, star (y c) ⬝ᵥ ((1 / 2 : ℝ) • ((U c mu) *ᵥ x (tshift g c mu 1) + (U (tshift g c mu (-1)) mu)ᴴ *ᵥ x (tshift g c mu (-1)))) =
      (1 / 2 : ℝ) * (star (y c) ⬝ᵥ ((U c mu) *ᵥ x (tshift g c mu 1))) + (1 / 2 : ℝ) * (star (y c) ⬝ᵥ ((U (tshift g c mu (-1)) mu)ᴴ *ᵥ x (tshift g c mu (-1)))) := by
    intro c
    rw [dotProduct_smul, dotProduct_add, smul_add]
    rfl
  have e2 : ∀ c, star ((1 / 2 : ℝ) • ((U c mu) *ᵥ y (tshift g c mu 1) + (U (tshift g c mu (-1)) mu)ᴴ *ᵥ y (tshift g c mu (-1)))) ⬝ᵥ x c =
      (1 / 2 : ℝ) * (star (y (tshift g c mu 1)) ⬝ᵥ ((U c mu)ᴴ *ᵥ x c)) + (1 / 2 : ℝ) * (star (y (tshift g c mu (-1))) ⬝ᵥ ((U (tshift g c mu (-1)) mu) *ᵥ x c)) := by
    intro c
    rw [star_smul, star_add, smul_dotProduct, add_dotProduct, star_mulVec, star_mulVec, conjTranspose_conjTranspose, dotProduct_mulVec, dotProduct_mulVec, smul_add]
    simp
  simp only [e1, e2]
  rw [Finset.sum_add_distrib, Finset.sum_add_distrib, add_comm]
  congr 1
  · rw [sum_shift ok mu (.inr rfl) (fun c d => ((1 / 2 : ℝ) : ℂ) * (star (y c) ⬝ᵥ ((U d mu)ᴴ *ᵥ x d)))]
    simp
  · rw [sum_shift ok mu (.inl rfl) (fun c d => ((1 / 2 : ℝ) : ℂ) * (star (y c) ⬝ᵥ ((U c mu) *ᵥ x d)))]

theorem pathShift_adjoint (U : Coords → Quad) (l : List Dir) : ∀ (y x : Coords → Col),
    dot (box g.L) y (pathShift g U l x) = dot (box g.L) (pathShift g U l.reverse y) x := by
  unfold pathShift
  induction l with
  | nil => intro y x; rfl
  | cons mu l ih =>
    intro y x
    rw [List.foldl_cons, ih, symShift_hermitian ok, List.reverse_cons, List.foldl_append]
    rfl

omit ok in
theorem shiftOp_fun (U : Coords → Quad) (S : Finset Dir) (x : Coords → Col) :
    shiftOp g U S x = ((1 : ℝ) / (Nat.factorial S.card : ℝ)) • ((S.toList.permutations.map fun l => pathShift g U l x).sum) := by
  funext c
  unfold shiftOp
  rw [Pi.smul_apply]
  congr 1
  generalize S.toList.permutations = L
  induction L with
  | nil => rfl
  | cons a L ih => simp only [List.map_cons, List.sum_cons, Pi.add_apply, ih]

omit ok in
theorem perms_reverse (S : Finset Dir) : (S.toList.permutations.map List.reverse).Perm S.toList.permutations := by
  refine (List.perm_ext_iff_of_nodup ?_ ?_).2 fun l => ?_
  · exact (List.nodup_permutations _ (Finset.nodup_toList S)).map List.reverse_injective
  · exact List.nodup_permutations _ (Finset.nodup_toList S)
  · simp only [List.mem_map, List.mem_permutations]
    constructor
    · rintro ⟨a, ha, rfl⟩
      exact (List.reverse_perm a).trans ha
    · intro h
      exact ⟨l.reverse, (List.reverse_perm l).trans h, List.reverse_reverse l⟩

/-- C62: the averaged shift is hermitian, for any links -/
theorem C62_shift_hermitian (U : Coords → Quad) (S : Finset Dir) (y x : Coords → Col) :
    dot (box g.L) y (shiftOp g U S x) = dot (box g.L) (shiftOp g U S y) x := by
  rw [shiftOp_fun, shiftOp_fun, dot_smul, smul_dot, dot_list_sum, list_sum_dot]
  congr 1
  rw [List.map_map, List.map_map]
  have : (S.toList.permutations.map ((fun y => dot (box g.L) y x) ∘ fun l => pathShift g U l y)).sum =
      ((S.toList.permutations.map List.reverse).map ((fun y => dot (box g.L) y x) ∘ fun l => pathShift g U l y)).sum :=
    ((perms_reverse S).map _).sum_eq.symm
  rw [this, List.map_map]
  congr 1
  refine List.map_congr_left fun l _ => ?_
  exact pathShift_adjoint ok U l y x

variable (eo : EoOk g)
include eo

theorem L_even (mu : Dir) : g.L mu % 2 = 0 := by
  have := eo mu
  have hd := ok.dvd mu
  unfold Geo.loc at this
  obtain ⟨k, hk⟩ := hd
  have hR := ok.R_pos mu
  rw [hk, Nat.mul_div_cancel_left _ hR] at this
  rw [hk, Nat.mul_mod, this]; simp

/-- the sign of a neighbour -/
theorem sgn_tshift (M : Finset Dir) (c : Coords) (mu : Dir) {d : Int} (hd : d = 1 ∨ d = -1) :
    sgn M (tshift g c mu d) = (if mu ∈ M then -1 else 1) * sgn M c := by
  have hp : ∀ n : Nat, ((-1 : ℝ)) ^ n = (-1) ^ (n % 2) := fun n => by
    conv_lhs => rw [← Nat.div_add_mod n 2, pow_add, pow_mul]
    norm_num
  have hpar : ((-1 : ℝ)) ^ (tshift g c mu d mu) = -(-1) ^ (c mu) := by
    have h2 := L_even ok eo mu
    have : (tshift g c mu d mu) % 2 = (c mu + 1) % 2 := by
      unfold tshift
      rw [Function.update_self]
      have h3 : ((((c mu : Int) + d) % g.L mu).toNat : Int) = ((c mu : Int) + d) % g.L mu := by
        refine Int.toNat_of_nonneg (Int.emod_nonneg _ ?_)
        have := ok.R_pos mu
        have := Nissa.Lx.L_pos ok mu
        omega
      have h4 : (((c mu : Int) + d) % g.L mu) % 2 = ((c mu : Int) + d) % 2 := Int.emod_emod_of_dvd _ (by omega)
      rcases hd with rfl | rfl <;> omega
    rw [hp, this, ← hp, pow_succ]; ring
  unfold sgn
  by_cases h : mu ∈ M
  · rw [if_pos h, ← Finset.add_sum_erase _ _ h, ← Finset.add_sum_erase _ _ h, pow_add, pow_add, hpar]
    have : ∑ rho ∈ M.erase mu, tshift g c mu d rho = ∑ rho ∈ M.erase mu, c rho :=
      Finset.sum_congr rfl fun rho hrho => by unfold tshift; exact Function.update_of_ne (Finset.ne_of_mem_erase hrho) _ _
    rw [this]
    ring
  · rw [if_neg h, one_mul]
    congr 1
    refine Finset.sum_congr rfl fun rho hrho => ?_
    unfold tshift
    refine Function.update_of_ne ?_ _ _
    intro he; subst he; exact h hrho

omit ok eo in
theorem sgn_sq (M : Finset Dir) (c : Coords) : sgn M c * sgn M c = 1 := by
  unfold sgn
  rw [← pow_add, ← two_mul, pow_mul]; norm_num

theorem symShift_sgn (U : Coords → Quad) (M : Finset Dir) (mu : Dir) (x : Coords → Col) :
    symShift g U mu (fun c => sgn M c • x c) = fun c => ((if mu ∈ M then (-1 : ℝ) else 1) * sgn M c) • symShift g U mu x c := by
  funext c
  unfold symShift
  beta_reduce
  rw [sgn_tshift ok eo M c mu (.inl rfl), sgn_tshift ok eo M c mu (.inr rfl), mulVec_smul, mulVec_smul, ← smul_add, smul_comm]

theorem pathShift_sgn (U : Coords → Quad) (M : Finset Dir) (l : List Dir) : ∀ (x : Coords → Col),
    pathShift g U l (fun c => sgn M c • x c) = fun c => ((-1) ^ (l.countP (· ∈ M)) * sgn M c) • pathShift g U l x c := by
  unfold pathShift
  induction l with
  | nil => intro x; funext c; simp
  | cons mu l ih =>
    intro x
    rw [List.foldl_cons, symShift_sgn ok eo]
    have : (fun c => ((if mu ∈ M then (-1 : ℝ) else 1) * sgn M c) • symShift g U mu x c) = fun c => sgn M c • ((if mu ∈ M then (-1 : ℝ) else 1) • symShift g U mu x) c := by
      funext c; rw [Pi.smul_apply, smul_smul, mul_comm]
    rw [this, ih]
    have hs : ∀ (l : List Dir) (a : ℝ) (x : Coords → Col), l.foldl (fun x mu => symShift g U mu x) (a • x) = a • l.foldl (fun x mu => symShift g U mu x) x := by
      intro l a
      induction l with
      | nil => intro x; rfl
      | cons nu l ih => intro x; rw [List.foldl_cons, symShift_smul, ih]; rfl
    funext c
    rw [hs, List.foldl_cons, Pi.smul_apply, smul_smul, List.countP_cons]
    congr 1
    by_cases h : mu ∈ M
    · simp only [h, if_true, decide_true]; rw [pow_succ]; ring
    · simp [h]

/-- C62: phases and shifts commute up to the sign of the directions in common -/
theorem C62_phase_shift (U : Coords → Quad) (M S : Finset Dir) (x : Coords → Col) (c : Coords) :
    shiftOp g U S (fun c => sgn M c • x c) c = ((-1 : ℝ) ^ ((S ∩ M).card)) • sgn M c • shiftOp g U S x c := by
  unfold shiftOp
  have : ∀ l ∈ S.toList.permutations, pathShift g U l (fun c => sgn M c • x c) c = ((-1) ^ ((S ∩ M).card) * sgn M c) • pathShift g U l x c := by
    intro l hl
    rw [List.mem_permutations] at hl
    rw [pathShift_sgn ok eo U M l x, hl.countP_eq]
    congr 3
    rw [List.countP_eq_length_filter]
    have : (S.toList.filter (fun a => decide (a ∈ M))).Perm (S ∩ M).toList := by
      refine (List.perm_ext_iff_of_nodup ((Finset.nodup_toList S).filter _) (Finset.nodup_toList _)).2 fun a => ?_
      simp
    rw [this.length_eq, Finset.length_toList]
  rw [List.map_congr_left this]
  have hs : ∀ (L : List (List Dir)) (a : ℝ) (f : List Dir → Col), (L.map fun l => a • f l).sum = a • (L.map f).sum := by
    intro L a f
    induction L with
    | nil => simp
    | cons l L ih => rw [List.map_cons, List.sum_cons, ih, List.map_cons, List.sum_cons, smul_add]
  rw [hs, smul_comm, ← smul_smul]

end

end

end Nissa.Stag
