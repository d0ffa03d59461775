import Verif.Measures.PropsStag2
import Mathlib.Analysis.SpecialFunctions.ExpDeriv
import Mathlib.Analysis.Calculus.IteratedDeriv.Defs

/-! # C62: the complete operator, its adjoint, gauge covariance, free limit; derivatives in the chemical potential -/

set_option linter.all false

namespace Nissa.Stag
open Nissa.Lx Nissa.Sten Nissa.Su3f Nissa.Gauge Nissa.StD Nissa.Back Matrix

noncomputable section

section
variable {g : Geo} (ok : g.Ok) (eo : EoOk g)
include ok eo

/-- C62: `apply_stag_op` on any grid of ranks, whatever the content of the scratch fields -/
theorem C62_stag_op (ji : Nat) (jq : Quad) (jv : Col) (jc : Coords) (junk : Dir → Int) (conf : EoConf) (u1b : EoU1) (spin taste : Int) (inp temp0 : EoCol) :
    ∃ out, apply_stag_op g ji jq jv jc junk conf u1b spin taste inp temp0 = some out ∧ ∀ c ∈ box g.L,
      globEo g out c = stagOp g (fun c mu => globEo g u1b c mu • globEo g conf c mu) spin taste (globEo g inp) c := by
  obtain ⟨out, h1, h2⟩ := (C62_shift_op ok eo ji jq jv jc junk conf u1b (xor4 spin taste) inp temp0).2
  refine ⟨_, by unfold apply_stag_op; simp only []; rw [h1]; rfl, fun c hc => ?_⟩
  rw [C62_phases ok eo ji jc out _ hc, h2 c hc]
  rfl

omit ok eo in
theorem dot_sgn (s : Finset Coords) (M : Finset Dir) (y x : Coords → Col) : dot s y (fun c => sgn M c • x c) = dot s (fun c => sgn M c • y c) x := by
  unfold dot
  refine Finset.sum_congr rfl fun c _ => ?_
  rw [star_smul, smul_dotProduct, dotProduct_smul]
  simp

/-- C62: the operator is hermitian or antihermitian, according to the number of shifted directions with a phase, for any links -/
theorem C62_op_adjoint (U : Coords → Quad) (spin taste : Int) (y x : Coords → Col) :
    dot (box g.L) y (stagOp g U spin taste x) =
      (-1) ^ ((bits (xor4 spin taste) ∩ bits (form_stag_op_pattern spin taste)).card) * dot (box g.L) (stagOp g U spin taste y) x := by
  have h1 : stagOp g U spin taste x = fun c => sgn (bits (form_stag_op_pattern spin taste)) c • shiftOp g U (bits (xor4 spin taste)) x c := rfl
  rw [h1, dot_sgn, C62_shift_hermitian ok]
  have h2 : shiftOp g U (bits (xor4 spin taste)) (fun c => sgn (bits (form_stag_op_pattern spin taste)) c • y c) =
      ((-1 : ℝ) ^ ((bits (xor4 spin taste) ∩ bits (form_stag_op_pattern spin taste)).card)) • stagOp g U spin taste y :=
    funext fun c => by rw [C62_phase_shift ok eo]; rfl
  rw [h2]
  generalize ((bits (xor4 spin taste) ∩ bits (form_stag_op_pattern spin taste)).card) = n
  unfold dot
  rw [Finset.mul_sum]
  refine Finset.sum_congr rfl fun c _ => ?_
  rw [Pi.smul_apply, star_smul, smul_dotProduct]
  simp

end

section
variable {g : Geo}

/-- C62: with identity spin and taste the operator is the identity -/
theorem C62_identity (U : Coords → Quad) (x : Coords → Col) : stagOp g U 0 0 x = x := by
  funext c
  unfold stagOp
  have h1 : bits (xor4 0 0) = ∅ := by decide +kernel
  have h2 : bits (form_stag_op_pattern 0 0) = ∅ := by decide +kernel
  rw [h1, h2]
  simp [sgn, shiftOp, pathShift]

/-- C62: gamma5 times gamma5 multiplies by the parity of the site -/
theorem C62_g5g5 (U : Coords → Quad) (x : Coords → Col) (c : Coords) : stagOp g U 15 15 x c = ((-1 : ℝ)) ^ (c 0 + c 1 + c 2 + c 3) • x c := by
  unfold stagOp
  have h1 : bits (xor4 15 15) = ∅ := by decide +kernel
  have h2 : bits (form_stag_op_pattern 15 15) = Finset.univ := by decide +kernel
  rw [h1, h2]
  simp [sgn, shiftOp, pathShift, Fin.sum_univ_four]

/-- C62: the mask of the mesons is the complement of that of the operator: the sign differs by the parity of the site -/
theorem C62_meson_mask (spin taste : Int) (c : Coords) :
    sgn (bits (form_stag_meson_pattern_with_g5g5 spin taste)) c = ((-1 : ℝ)) ^ (c 0 + c 1 + c 2 + c 3) * sgn (bits (form_stag_op_pattern spin taste)) c := by
  have h : bits (form_stag_meson_pattern_with_g5g5 spin taste) = (bits (form_stag_op_pattern spin taste))ᶜ := by
    ext mu
    unfold bits form_stag_meson_pattern_with_g5g5
    simp only [Finset.mem_filter, Finset.mem_univ, true_and, Finset.mem_compl]
    rw [pattern_bits, pattern_bits]
    have x4 : ∀ (a : Int) (k : Fin 4), bit (xor4 a 15) k = !bit a k := fun a k => by
      rw [xor4_bits]
      have : bit 15 k = true := by revert k; decide +kernel
      rw [this]; simp
    have a0 := x4 taste 0; have a1 := x4 taste 1; have a2 := x4 taste 2; have b1 := x4 spin 1; have b2 := x4 spin 2; have b3 := x4 spin 3
    simp only [Fin.val_zero, Fin.val_one, Fin.val_two, show ((3 : Fin 4) : Nat) = 3 from rfl] at a0 a1 a2 b1 b2 b3
    rw [a0, a1, a2, b1, b2, b3]
    generalize bit spin 1 = s1; generalize bit spin 2 = s2; generalize bit spin 3 = s3
    generalize bit taste 0 = t0; generalize bit taste 1 = t1; generalize bit taste 2 = t2
    revert mu s1 s2 s3 t0 t1 t2
    decide +kernel
  rw [h]
  generalize bits (form_stag_op_pattern spin taste) = M
  unfold sgn
  have : c 0 + c 1 + c 2 + c 3 = ∑ mu ∈ M, c mu + ∑ mu ∈ Mᶜ, c mu := by rw [Finset.sum_add_sum_compl, Fin.sum_univ_four]
  rw [this, pow_add]
  have := sgn_sq M c
  unfold sgn at this
  linear_combination (-(-1) ^ (∑ mu ∈ Mᶜ, c mu)) * this

/-- the neighbour of `c` displaced by one in all the directions of `S`, forward in those where `e` is true -/
def corner (g : Geo) (S : Finset Dir) (e : Dir → Bool) (c : Coords) : Coords := fun mu =>
  if mu ∈ S then (((c mu : Int) + if e mu then 1 else -1) % g.L mu).toNat else c mu

theorem flip_sum {M : Type} [AddCommMonoid M] (mu : Dir) (F : (Dir → Bool) → M) : ∑ e : Dir → Bool, F (Function.update e mu (!e mu)) = ∑ e, F e := by
  have hinv : Function.Involutive fun e : Dir → Bool => Function.update e mu (!e mu) := by
    intro e
    funext k
    by_cases h : k = mu
    · subst h; simp
    · simp [Function.update_of_ne h]
  exact Fintype.sum_equiv hinv.toPerm _ _ fun e => rfl

theorem two_sum (mu : Dir) (F : (Dir → Bool) → Col) : ∑ e : Dir → Bool, (F (Function.update e mu true) + F (Function.update e mu false)) = (2 : ℝ) • ∑ e, F e := by
  have : ∀ e : Dir → Bool, F (Function.update e mu true) + F (Function.update e mu false) = F e + F (Function.update e mu (!e mu)) := by
    intro e
    cases h : e mu
    · rw [add_comm]
      congr 2
      · rw [← h, Function.update_eq_self]
    · congr 2
      · rw [← h, Function.update_eq_self]
  rw [Finset.sum_congr rfl fun e _ => this e, Finset.sum_add_distrib, flip_sum, two_smul]

/-- C62: without gauge field the shift averages the corners of the hypercube around the site -/
theorem C62_free_shift (S : Finset Dir) (x : Coords → Col) (c : Coords) :
    shiftOp g (fun _ _ => 1) S x c = (1 / 16 : ℝ) • ∑ e : Dir → Bool, x (corner g S e c) := by
  have key : ∀ l : List Dir, l.Nodup → ∀ (x : Coords → Col) (c : Coords),
      pathShift g (fun _ _ => 1) l x c = (1 / 16 : ℝ) • ∑ e : Dir → Bool, x (corner g l.toFinset e c) := by
    intro l
    induction l with
    | nil =>
      intro _ x c
      have : ∀ e : Dir → Bool, corner g ([] : List Dir).toFinset e c = c := fun e => by funext mu; simp [corner]
      simp only [this, Finset.sum_const, Finset.card_univ, pathShift, List.foldl_nil]
      have : Fintype.card (Dir → Bool) = 16 := by decide +kernel
      rw [this, ← Nat.cast_smul_eq_nsmul ℝ, smul_smul]
      norm_num
    | cons mu l ih =>
      intro hnd x c
      have hmu : mu ∉ l.toFinset := by rw [List.mem_toFinset]; exact (List.nodup_cons.1 hnd).1
      have e1 : pathShift g (fun _ _ => 1) (mu :: l) x c = pathShift g (fun _ _ => 1) l (symShift g (fun _ _ => 1) mu x) c := rfl
      rw [e1, ih (List.nodup_cons.1 hnd).2]
      congr 1
      have e2 : ∀ e : Dir → Bool, symShift g (fun _ _ => 1) mu x (corner g l.toFinset e c) =
          (1 / 2 : ℝ) • (x (corner g (mu :: l).toFinset (Function.update e mu true) c) + x (corner g (mu :: l).toFinset (Function.update e mu false) c)) := by
        intro e
        unfold symShift
        rw [conjTranspose_one, one_mulVec, one_mulVec]
        have hc : ∀ b : Bool, tshift g (corner g l.toFinset e c) mu (if b then 1 else -1) = corner g (mu :: l).toFinset (Function.update e mu b) c := by
          intro b
          funext nu
          unfold tshift corner
          by_cases h : nu = mu
          · subst h
            simp only [Function.update_self, List.toFinset_cons, Finset.mem_insert_self, if_true, if_neg hmu]
          · simp only [Function.update_of_ne h, List.toFinset_cons, Finset.mem_insert, h, false_or]
        have h1 := hc true
        have h2 := hc false
        simp only [if_true, Bool.false_eq_true, if_false] at h1 h2
        rw [h1, h2]
      rw [Finset.sum_congr rfl fun e _ => e2 e, ← Finset.smul_sum, two_sum mu fun e => x (corner g (mu :: l).toFinset e c), smul_smul]
      norm_num
  unfold shiftOp
  have : ∀ l ∈ S.toList.permutations, pathShift g (fun _ _ => 1) l x c = (1 / 16 : ℝ) • ∑ e : Dir → Bool, x (corner g S e c) := by
    intro l hl
    rw [List.mem_permutations] at hl
    rw [key l (hl.nodup_iff.2 (Finset.nodup_toList S))]
    have : l.toFinset = S := by
      ext mu; rw [List.mem_toFinset, hl.mem_iff, Finset.mem_toList]
    rw [this]
  rw [List.map_congr_left this, List.map_const', List.sum_replicate, List.length_permutations, Finset.length_toList, ← Nat.cast_smul_eq_nsmul ℝ, smul_smul]
  have : (Nat.factorial S.card : ℝ) ≠ 0 := by exact_mod_cast Nat.factorial_ne_zero _
  rw [one_div, inv_mul_cancel₀ this, one_smul]

variable (ok : g.Ok)
include ok

/-- C62: gauge covariance of the operators -/
theorem C62_covariant (G : Coords → M3) (hG : AllUnitary g G) (U : Coords → Quad) (spin taste : Int) (x : Coords → Col) {c : Coords} (hc : c ∈ box g.L) :
    stagOp g (transformed g G U) spin taste (fun c => G c *ᵥ x c) c = G c *ᵥ stagOp g U spin taste x c := by
  have hs : ∀ (mu : Dir) (x : Coords → Col), ∀ c ∈ box g.L, symShift g (transformed g G U) mu (fun c => G c *ᵥ x c) c = G c *ᵥ symShift g U mu x c := by
    intro mu x c hc
    unfold symShift transformed
    have b1 := tshift_mem_box ok hc mu 1
    have b2 := tshift_mem_box ok hc mu (-1)
    rw [show tshift g (tshift g c mu (-1)) mu 1 = c from by
      have := Nissa.Paths.tshift_back ok hc mu (-1) (.inr rfl); rwa [neg_neg] at this]
    rw [mulVec_smul, mulVec_add, mulVec_mulVec, mulVec_mulVec, conjTranspose_mul, conjTranspose_mul, conjTranspose_conjTranspose]
    rw [Matrix.mul_assoc (G c * U c mu), hG _ b1, Matrix.mul_one]
    rw [Matrix.mul_assoc (G c), Matrix.mul_assoc _ _ (G (tshift g c mu (-1))), hG _ b2, Matrix.mul_one]
    rw [mulVec_mulVec, mulVec_mulVec]
  have hp : ∀ (l : List Dir) (x : Coords → Col), ∀ c ∈ box g.L, pathShift g (transformed g G U) l (fun c => G c *ᵥ x c) c = G c *ᵥ pathShift g U l x c := by
    intro l
    induction l with
    | nil => intro x c _; rfl
    | cons mu l ih =>
      intro x c hc
      have e1 : pathShift g (transformed g G U) (mu :: l) (fun c => G c *ᵥ x c) c =
          pathShift g (transformed g G U) l (symShift g (transformed g G U) mu (fun c => G c *ᵥ x c)) c := rfl
      rw [e1, pathShift_congr ok (U' := transformed g G U) (fun _ _ => rfl) l (y := fun c => G c *ᵥ symShift g U mu x c) (hs mu x) c hc, ih _ c hc]
      rfl
  unfold stagOp shiftOp
  rw [mulVec_smul, mulVec_smul]
  congr 2
  generalize (bits (xor4 spin taste)).toList.permutations = L
  induction L with
  | nil => simp
  | cons l L ih => rw [List.map_cons, List.sum_cons, List.map_cons, List.sum_cons, mulVec_add, ih, hp l x c hc]

end

end

end Nissa.Stag
