import Verif.Color.PropsSu3Ortho

/-! # C37: SU(2) subgroups, maximal trace projection, overrelaxation -/

set_option linter.all false

namespace Nissa.Su3f

open Complex ComplexConjugate Matrix

/-- sum of the squares -/
def Su2.n2 (x : Su2) : ℝ := x.A*x.A + x.B*x.B + x.C*x.C + x.D*x.D

/-- the SU(2) matrix put in the rows and columns of the subgroup -/
def emb (x : Su2) (g : Fin 3) : M3 := su2_prodassign_su3 x g 1

theorem prodassign_mul (x : Su2) (g : Fin 3) (M : M3) : su2_prodassign_su3 x g M = emb x g * M := by
  ext i j
  rw [Matrix.mul_apply, Fin.sum_univ_three]
  fin_cases g <;> fin_cases i <;> simp [emb, su2_prodassign_su3, su3_sub_gr_indices, Matrix.one_apply]

theorem emb_su3 (x : Su2) (g : Fin 3) (h : x.n2 = 1) : IsSU3 (emb x g) := by
  unfold Su2.n2 at h
  constructor
  · ext i j
    rw [Matrix.mul_apply, Fin.sum_univ_three, Matrix.conjTranspose_apply, Matrix.conjTranspose_apply,
      Matrix.conjTranspose_apply]
    fin_cases g <;> fin_cases i <;> fin_cases j <;>
      simp [emb, su2_prodassign_su3, su3_sub_gr_indices, Matrix.one_apply, Complex.ext_iff] <;>
      first | done | (constructor <;> nlinarith [h]) | nlinarith [h]
  · rw [Matrix.det_fin_three]
    fin_cases g <;>
      simp [emb, su2_prodassign_su3, su3_sub_gr_indices, Matrix.one_apply, Complex.ext_iff] <;>
      first | done | (constructor <;> nlinarith [h]) | nlinarith [h]

theorem su3_mul {U V : M3} (hU : IsSU3 U) (hV : IsSU3 V) : IsSU3 (U * V) := by
  constructor
  · rw [Matrix.conjTranspose_mul, Matrix.mul_assoc, ← Matrix.mul_assoc V, hV.1, Matrix.one_mul, hU.1]
  · rw [Matrix.det_mul, hU.2, hV.2, mul_one]

theorem part_unit (P : M3) (g : Fin 3) : (su2_part_of_su3 P g).n2 = 1 := by
  unfold su2_part_of_su3
  dsimp only []
  generalize ha : (P (su3_sub_gr_indices g).1 (su3_sub_gr_indices g).1).re + (P (su3_sub_gr_indices g).2 (su3_sub_gr_indices g).2).re = A
  generalize hb : (P (su3_sub_gr_indices g).1 (su3_sub_gr_indices g).2).im + (P (su3_sub_gr_indices g).2 (su3_sub_gr_indices g).1).im = B
  generalize hc : (P (su3_sub_gr_indices g).1 (su3_sub_gr_indices g).2).re - (P (su3_sub_gr_indices g).2 (su3_sub_gr_indices g).1).re = C
  generalize hd : (P (su3_sub_gr_indices g).1 (su3_sub_gr_indices g).1).im - (P (su3_sub_gr_indices g).2 (su3_sub_gr_indices g).2).im = D
  have qa := mul_self_nonneg A; have qb := mul_self_nonneg B
  have qc := mul_self_nonneg C; have qd := mul_self_nonneg D
  by_cases h : Real.sqrt (A*A+B*B+C*C+D*D) = 0
  · rw [if_pos h]
    rw [Real.sqrt_eq_zero (by linarith)] at h
    have zb : B = 0 := mul_self_eq_zero.mp (by linarith)
    have zc : C = 0 := mul_self_eq_zero.mp (by linarith)
    have zd : D = 0 := mul_self_eq_zero.mp (by linarith)
    simp [Su2.n2, zb, zc, zd]
  · rw [if_neg h]
    have hs := Real.mul_self_sqrt (show 0 ≤ A*A+B*B+C*C+D*D by linarith)
    set N := Real.sqrt (A*A+B*B+C*C+D*D)
    simp only [Su2.n2]
    field_simp
    nlinarith

/-- there is a non-negative factor between the part of the subgroup and its normalised version -/
theorem part_scale (P : M3) (g : Fin 3) : ∃ k : ℝ, 0 ≤ k ∧
    (P (su3_sub_gr_indices g).1 (su3_sub_gr_indices g).1).re + (P (su3_sub_gr_indices g).2 (su3_sub_gr_indices g).2).re
      = k * (su2_part_of_su3 P g).A ∧
    (P (su3_sub_gr_indices g).1 (su3_sub_gr_indices g).2).im + (P (su3_sub_gr_indices g).2 (su3_sub_gr_indices g).1).im
      = k * (su2_part_of_su3 P g).B ∧
    (P (su3_sub_gr_indices g).1 (su3_sub_gr_indices g).2).re - (P (su3_sub_gr_indices g).2 (su3_sub_gr_indices g).1).re
      = k * (su2_part_of_su3 P g).C ∧
    (P (su3_sub_gr_indices g).1 (su3_sub_gr_indices g).1).im - (P (su3_sub_gr_indices g).2 (su3_sub_gr_indices g).2).im
      = k * (su2_part_of_su3 P g).D := by
  unfold su2_part_of_su3
  dsimp only []
  generalize ha : (P (su3_sub_gr_indices g).1 (su3_sub_gr_indices g).1).re + (P (su3_sub_gr_indices g).2 (su3_sub_gr_indices g).2).re = A
  generalize hb : (P (su3_sub_gr_indices g).1 (su3_sub_gr_indices g).2).im + (P (su3_sub_gr_indices g).2 (su3_sub_gr_indices g).1).im = B
  generalize hc : (P (su3_sub_gr_indices g).1 (su3_sub_gr_indices g).2).re - (P (su3_sub_gr_indices g).2 (su3_sub_gr_indices g).1).re = C
  generalize hd : (P (su3_sub_gr_indices g).1 (su3_sub_gr_indices g).1).im - (P (su3_sub_gr_indices g).2 (su3_sub_gr_indices g).2).im = D
  have qa := mul_self_nonneg A; have qb := mul_self_nonneg B
  have qc := mul_self_nonneg C; have qd := mul_self_nonneg D
  by_cases h : Real.sqrt (A*A+B*B+C*C+D*D) = 0
  · rw [if_pos h]
    rw [Real.sqrt_eq_zero (by linarith)] at h
    have za : A = 0 := mul_self_eq_zero.mp (by linarith)
    have zb : B = 0 := mul_self_eq_zero.mp (by linarith)
    have zc : C = 0 := mul_self_eq_zero.mp (by linarith)
    have zd : D = 0 := mul_self_eq_zero.mp (by linarith)
    exact ⟨0, le_refl _, by simp [za], by simp [zb], by simp [zc], by simp [zd]⟩
  · rw [if_neg h]
    have hn := Real.sqrt_nonneg (A*A+B*B+C*C+D*D)
    generalize Real.sqrt (A*A+B*B+C*C+D*D) = N at h hn
    refine ⟨N, hn, ?_, ?_, ?_, ?_⟩ <;> dsimp only [] <;> field_simp

theorem trace_eq (u : M3) : su3_real_trace u = (Matrix.trace u).re := by
  simp [su3_real_trace, Matrix.trace, Fin.sum_univ_three]

/-- trace of a matrix rotated in a subgroup -/
theorem trace_rot (x : Su2) (g : Fin 3) (P : M3) :
    su3_real_trace (su2_prodassign_su3 x g P) = su3_real_trace P + (x.A - 1) *
    ((P (su3_sub_gr_indices g).1 (su3_sub_gr_indices g).1).re + (P (su3_sub_gr_indices g).2 (su3_sub_gr_indices g).2).re)
    - x.B * ((P (su3_sub_gr_indices g).1 (su3_sub_gr_indices g).2).im + (P (su3_sub_gr_indices g).2 (su3_sub_gr_indices g).1).im)
    - x.C * ((P (su3_sub_gr_indices g).1 (su3_sub_gr_indices g).2).re - (P (su3_sub_gr_indices g).2 (su3_sub_gr_indices g).1).re)
    - x.D * ((P (su3_sub_gr_indices g).1 (su3_sub_gr_indices g).1).im - (P (su3_sub_gr_indices g).2 (su3_sub_gr_indices g).2).im) := by
  fin_cases g <;> simp [su3_real_trace, su2_prodassign_su3, su3_sub_gr_indices] <;> ring

theorem inv_unit {x : Su2} (h : x.n2 = 1) : (su2_inv x).n2 = 1 := by
  unfold Su2.n2 su2_inv at *; dsimp only []; nlinarith

theorem over_unit {x : Su2} (h : x.n2 = 1) : (su2_get_overrelaxing x).n2 = 1 := by
  unfold Su2.n2 su2_get_overrelaxing at *
  dsimp only []
  have : x.B*x.B + x.C*x.C + x.D*x.D = 1 - x.A*x.A := by linarith
  have e : (2 * x.A * x.A - 1) * (2 * x.A * x.A - 1) + -2 * x.A * x.B * (-2 * x.A * x.B) + -2 * x.A * x.C * (-2 * x.A * x.C) +
      -2 * x.A * x.D * (-2 * x.A * x.D) =
      (2 * x.A * x.A - 1) * (2 * x.A * x.A - 1) + 4 * x.A * x.A * (x.B*x.B + x.C*x.C + x.D*x.D) := by ring
  rw [e, this]; ring

/-- The rotation by the inverse maximises the trace in the subgroup: no other SU(2) rotation gives more. -/
theorem trace_inv_max (P : M3) (g : Fin 3) (x : Su2) (hx : x.n2 = 1) :
    su3_real_trace (su2_prodassign_su3 x g P) ≤ su3_real_trace (su2_prodassign_su3 (su2_inv (su2_part_of_su3 P g)) g P) := by
  obtain ⟨k, hk, ea, eb, ec, ed⟩ := part_scale P g
  have hu := part_unit P g
  set r := su2_part_of_su3 P g
  rw [trace_rot, trace_rot, ea, eb, ec, ed]
  simp only [su2_inv]
  unfold Su2.n2 at hx hu
  have cs : x.A * r.A - x.B * r.B - x.C * r.C - x.D * r.D ≤ 1 := by
    nlinarith [sq_nonneg (x.A - r.A), sq_nonneg (x.B + r.B), sq_nonneg (x.C + r.C), sq_nonneg (x.D + r.D)]
  have cs' := mul_le_mul_of_nonneg_left cs hk
  have hku : k * (r.A*r.A + r.B*r.B + r.C*r.C + r.D*r.D) = k := by rw [hu, mul_one]
  nlinarith [cs', hku]

theorem trace_over (P : M3) (g : Fin 3) :
    su3_real_trace (su2_prodassign_su3 (su2_get_overrelaxing (su2_part_of_su3 P g)) g P) = su3_real_trace P := by
  obtain ⟨k, hk, ea, eb, ec, ed⟩ := part_scale P g
  have hu := part_unit P g
  set r := su2_part_of_su3 P g
  rw [trace_rot, ea, eb, ec, ed]
  simp only [su2_get_overrelaxing]
  unfold Su2.n2 at hu
  have hku : 2 * k * r.A * (r.A*r.A + r.B*r.B + r.C*r.C + r.D*r.D) = 2 * k * r.A := by rw [hu, mul_one]
  nlinarith [hku]

theorem one_rot (P : M3) (g : Fin 3) : su2_prodassign_su3 ⟨1, 0, 0, 0⟩ g P = P := by
  ext i j
  fin_cases g <;> fin_cases i <;> simp [su2_prodassign_su3, su3_sub_gr_indices, Complex.ext_iff]

theorem trace_inv_ge (P : M3) (g : Fin 3) :
    su3_real_trace P ≤ su3_real_trace (su2_prodassign_su3 (su2_inv (su2_part_of_su3 P g)) g P) := by
  have := trace_inv_max P g ⟨1, 0, 0, 0⟩ (by norm_num [Su2.n2])
  rwa [one_rot] at this

/-! ### the state of the algorithms: link and product -/

/-- the second matrix is the product of the first and of `M^+` -/
def Tied (M : M3) (s : M3 × M3) : Prop := s.2 = s.1 * Mᴴ

theorem rot_tied (M : M3) (pick : Su2 → Su2) (s : M3 × M3) (g : Fin 3) (h : Tied M s) : Tied M (rotate2 pick s g) := by
  unfold Tied rotate2 at *
  dsimp only []
  rw [prodassign_mul, prodassign_mul, h, Matrix.mul_assoc]

theorem rot_su3 (pick : Su2 → Su2) (hp : ∀ x, x.n2 = 1 → (pick x).n2 = 1) (s : M3 × M3) (g : Fin 3) (h : IsSU3 s.1) :
    IsSU3 (rotate2 pick s g).1 := by
  unfold rotate2; dsimp only []
  rw [prodassign_mul]
  exact su3_mul (emb_su3 _ _ (hp _ (part_unit _ _))) h

/-- what one wants to know of a sweep with product kept -/
def Good (M : M3) (s s' : M3 × M3) : Prop := Tied M s' ∧ (IsSU3 s.1 → IsSU3 s'.1) ∧ su3_real_trace s.2 ≤ su3_real_trace s'.2

theorem inv_good (M : M3) (s : M3 × M3) (g : Fin 3) (h : Tied M s) : Good M s (rotate2 su2_inv s g) :=
  ⟨rot_tied M _ s g h, rot_su3 _ (fun x => inv_unit) s g, trace_inv_ge s.2 g⟩

theorem over_good (M : M3) (s : M3 × M3) (g : Fin 3) (h : Tied M s) : Good M s (rotate2 su2_get_overrelaxing s g) ∧
    su3_real_trace (rotate2 su2_get_overrelaxing s g).2 = su3_real_trace s.2 :=
  ⟨⟨rot_tied M _ s g h, rot_su3 _ (fun x => over_unit) s g, (trace_over s.2 g).ge⟩, trace_over s.2 g⟩

theorem good_trans {M : M3} {a b c : M3 × M3} (h : Good M a b) (k : Good M b c) : Good M a c :=
  ⟨k.1, fun x => k.2.1 (h.2.1 x), h.2.2.trans k.2.2⟩

theorem over_fold (M : M3) : ∀ (l : List (Fin 3)) (s : M3 × M3), Tied M s →
    Good M s (l.foldl (rotate2 su2_get_overrelaxing) s) ∧
    su3_real_trace (l.foldl (rotate2 su2_get_overrelaxing) s).2 = su3_real_trace s.2 := by
  intro l
  induction l with
  | nil => intro s h; exact ⟨⟨h, id, le_refl _⟩, rfl⟩
  | cons g l ih =>
    intro s h
    have a := over_good M s g h
    have b := ih (rotate2 su2_get_overrelaxing s g) a.1.1
    exact ⟨good_trans a.1 b.1, b.2.trans a.2⟩

theorem inv_fold (M : M3) : ∀ (l : List (Fin 3)) (s : M3 × M3), Tied M s →
    Good M s (l.foldl (rotate2 su2_inv) s) := by
  intro l
  induction l with
  | nil => intro s h; exact ⟨h, id, le_refl _⟩
  | cons g l ih =>
    intro s h
    have a := inv_good M s g h
    exact good_trans a (ih (rotate2 su2_inv s g) a.1)

/-- One iteration of the maximal trace projection: unitarity and determinant are kept, `Re Tr(U M^+)` does not decrease and
is what is returned; the version computing the product once and the slow one give the same link. -/
theorem C37_max_trace_iteration (U M : M3) :
    (IsSU3 U → IsSU3 (maxTraceIteration U M).1) ∧
    (maxTraceIteration U M).2 = (Matrix.trace ((maxTraceIteration U M).1 * Mᴴ)).re ∧
    (Matrix.trace (U * Mᴴ)).re ≤ (Matrix.trace ((maxTraceIteration U M).1 * Mᴴ)).re ∧
    maxTraceIterationSlow U M = (maxTraceIteration U M).1 := by
  have h := inv_fold M [0, 1, 2] (U, U * Mᴴ) rfl
  have h1 : (maxTraceIteration U M).2 = (Matrix.trace ((maxTraceIteration U M).1 * Mᴴ)).re := by
    unfold maxTraceIteration; dsimp only []
    rw [trace_eq, h.1]
  refine ⟨h.2.1, h1, ?_, ?_⟩
  · rw [← h1, ← trace_eq]; exact h.2.2
  · have key : ∀ (l : List (Fin 3)) (s : M3 × M3), Tied M s →
        l.foldl (maxTraceStepSlow M) s.1 = (l.foldl (rotate2 su2_inv) s).1 := by
      intro l
      induction l with
      | nil => intro s _; rfl
      | cons g l ih =>
        intro s hs
        have e : maxTraceStepSlow M s.1 g = (rotate2 su2_inv s g).1 := by
          unfold maxTraceStepSlow rotate2; dsimp only []; rw [hs]
        rw [List.foldl_cons, List.foldl_cons, e]
        exact ih _ (inv_good M s g hs).1
    exact key [0, 1, 2] (U, U * Mᴴ) rfl

/-- Overrelaxation, any number of hits: the new link is in SU(3) if the old was, and `Re Tr(U staple^+)`, hence the action,
is unchanged. -/
theorem C37_overrelaxed (inp staple : M3) (nov_hits : ℕ) :
    (IsSU3 inp → IsSU3 (su3_find_overrelaxed inp staple nov_hits).1) ∧
    (Matrix.trace ((su3_find_overrelaxed inp staple nov_hits).1 * stapleᴴ)).re = (Matrix.trace (inp * stapleᴴ)).re := by
  have key : Good staple (inp, inp * stapleᴴ) (su3_find_overrelaxed inp staple nov_hits) ∧
      su3_real_trace (su3_find_overrelaxed inp staple nov_hits).2 = su3_real_trace (inp * stapleᴴ) := by
    induction nov_hits with
    | zero => exact ⟨⟨rfl, id, le_refl _⟩, rfl⟩
    | succ n ih =>
      have := over_fold staple [0, 1, 2] (su3_find_overrelaxed inp staple n) ih.1.1
      exact ⟨good_trans ih.1 this.1, this.2.trans ih.2⟩
  refine ⟨key.1.2.1, ?_⟩
  rw [← key.1.1, ← trace_eq, ← trace_eq, key.2]

/-! ### the full projection -/

/-- no rotation of one of the three subgroups gives a trace larger by more than the given amount -/
theorem sweep_good (M : M3) (s : M3 × M3) (h : Tied M s) : Good M s (maxTraceSweep s).1 := by
  unfold maxTraceSweep
  dsimp only []
  have a0 := inv_good M s 0 h
  have a1 := inv_good M (rotate2 su2_inv s 0) 1 a0.1
  have a2 := inv_good M (rotate2 su2_inv (rotate2 su2_inv s 0) 1) 2 a1.1
  have a := good_trans (good_trans a0 a1) a2
  have b := over_fold M [0, 1, 2] _ a2.1
  have c := over_fold M [0, 1, 2] _ b.1.1
  exact good_trans (good_trans a b.1) c.1

theorem loop_good (reuni : M3 → M3) (M : M3) (precision : ℝ) (niter_max : ℕ) : ∀ fuel iter s V, Tied M s → IsSU3 s.1 →
    maxTraceLoop reuni M precision niter_max fuel iter s = some V →
    IsSU3 V ∧ su3_real_trace s.2 ≤ su3_real_trace (V * Mᴴ) ∧
    ∃ s', Tied M s' ∧ IsSU3 s'.1 ∧ (maxTraceSweep s').1.1 = V ∧ rotatingNorm s' 0 < precision ∧
      rotatingNorm (rotate2 su2_inv s' 0) 1 < precision ∧
      rotatingNorm (rotate2 su2_inv (rotate2 su2_inv s' 0) 1) 2 < precision := by
  intro fuel
  induction fuel with
  | zero => intro iter s V _ _ h; simp [maxTraceLoop] at h
  | succ fuel ih =>
    intro iter s V ht hs h
    have g := sweep_good M s ht
    have hz : su3_get_non_unitariness (maxTraceSweep s).1.1 = 0 := (C37_non_unitariness _).mpr (g.2.1 hs).1
    unfold maxTraceLoop at h
    dsimp only [] at h
    rw [if_neg (show ¬((maxTraceSweep s).2.2.2 < Real.sqrt precision ∧
      (1e-15 : ℝ) < su3_get_non_unitariness (maxTraceSweep s).1.1) by rw [hz]; norm_num)] at h
    by_cases hn : niter_max < iter + 1
    · rw [if_pos hn] at h; exact absurd h (by simp)
    · rw [if_neg hn] at h
      by_cases hc : 3 ≤ iter ∧ (maxTraceSweep s).2.1 < precision ∧ (maxTraceSweep s).2.2.1 < precision ∧
          (maxTraceSweep s).2.2.2 < precision
      · rw [if_pos hc] at h
        have hV : (maxTraceSweep s).1.1 = V := by simpa using h
        refine ⟨hV ▸ g.2.1 hs, ?_, s, ht, hs, hV, hc.2.1, hc.2.2.1, hc.2.2.2⟩
        rw [← hV, ← g.1]; exact g.2.2
      · rw [if_neg hc] at h
        obtain ⟨r1, r2, r3⟩ := ih (iter + 1) _ V g.1 (g.2.1 hs) h
        exact ⟨r1, g.2.2.trans r2, r3⟩

/-- The projection maximising the trace: when it does not abort, it returns an SU(3) matrix, with `Re Tr(V M^+)` not less
than that of the identity; it was reached after a pass where the three rotations maximising the trace in the subgroups were
all at distance less than the precision from the identity. The function used to fight the rounding is never called in
exact arithmetic. -/
theorem C37_max_trace (reuni : M3 → M3) (M V : M3) (precision : ℝ) (niter_max : ℕ)
    (h : su3_unitarize_maximal_trace_projecting reuni M precision niter_max = some V) :
    IsSU3 V ∧ (Matrix.trace Mᴴ).re ≤ (Matrix.trace (V * Mᴴ)).re ∧
    ∃ s', Tied M s' ∧ IsSU3 s'.1 ∧ (maxTraceSweep s').1.1 = V ∧ rotatingNorm s' 0 < precision ∧
      rotatingNorm (rotate2 su2_inv s' 0) 1 < precision ∧
      rotatingNorm (rotate2 su2_inv (rotate2 su2_inv s' 0) 1) 2 < precision := by
  have h1 : IsSU3 (1 : M3) := ⟨by simp, by simp⟩
  obtain ⟨r1, r2, r3⟩ := loop_good reuni M precision niter_max _ 0 (1, 1 * Mᴴ) V rfl h1 h
  refine ⟨r1, ?_, r3⟩
  rw [trace_eq, trace_eq, Matrix.one_mul] at r2
  exact r2

/-- the norm of the rotation bounds what could still be gained: it is the distance of the maximising SU(2) rotation from the
identity, and the gain in the subgroup is at most the norm squared times the size of the subgroup part over two -/
theorem C37_max_trace_gain (s : M3 × M3) (g : Fin 3) (x : Su2) (hx : x.n2 = 1) : ∃ k : ℝ, 0 ≤ k ∧ k^2 ≤ 4 * su3_norm2 s.2 ∧
    su3_real_trace (su2_prodassign_su3 x g s.2) - su3_real_trace s.2 ≤ k * (rotatingNorm s g)^2 / 2 := by
  obtain ⟨k, hk, ea, eb, ec, ed⟩ := part_scale s.2 g
  have hu := part_unit s.2 g
  refine ⟨k, hk, ?_, ?_⟩
  · have e : k^2 = (k*(su2_part_of_su3 s.2 g).A)^2 + (k*(su2_part_of_su3 s.2 g).B)^2 + (k*(su2_part_of_su3 s.2 g).C)^2 +
        (k*(su2_part_of_su3 s.2 g).D)^2 := by
      unfold Su2.n2 at hu; nlinarith [hu]
    rw [e, ← ea, ← eb, ← ec, ← ed]
    generalize s.2 = P
    have e2 : ∀ a b : ℝ, (a+b)^2 ≤ 2*(a*a+b*b) := fun a b => by nlinarith [sq_nonneg (a-b)]
    have e3 : ∀ a b : ℝ, (a-b)^2 ≤ 2*(a*a+b*b) := fun a b => by nlinarith [sq_nonneg (a+b)]
    have z : ∀ i j : Fin 3, 0 ≤ (P i j).re*(P i j).re + (P i j).im*(P i j).im := fun i j => by
      nlinarith [sq_nonneg (P i j).re, sq_nonneg (P i j).im]
    have z00 := z 0 0; have z01 := z 0 1; have z02 := z 0 2; have z10 := z 1 0; have z11 := z 1 1; have z12 := z 1 2
    have z20 := z 2 0; have z21 := z 2 1; have z22 := z 2 2
    unfold su3_norm2 color_norm2
    have f1 := e2 (P (su3_sub_gr_indices g).1 (su3_sub_gr_indices g).1).re (P (su3_sub_gr_indices g).2 (su3_sub_gr_indices g).2).re
    have f2 := e2 (P (su3_sub_gr_indices g).1 (su3_sub_gr_indices g).2).im (P (su3_sub_gr_indices g).2 (su3_sub_gr_indices g).1).im
    have f3 := e3 (P (su3_sub_gr_indices g).1 (su3_sub_gr_indices g).2).re (P (su3_sub_gr_indices g).2 (su3_sub_gr_indices g).1).re
    have f4 := e3 (P (su3_sub_gr_indices g).1 (su3_sub_gr_indices g).1).im (P (su3_sub_gr_indices g).2 (su3_sub_gr_indices g).2).im
    refine (add_le_add (add_le_add (add_le_add f1 f2) f3) f4).trans ?_
    fin_cases g <;> simp [su3_sub_gr_indices] <;> linarith
  · have hm := trace_inv_max s.2 g x hx
    refine (sub_le_sub_right hm _).trans ?_
    unfold rotatingNorm
    rw [Real.sq_sqrt]
    · rw [trace_rot, ea, eb, ec, ed]
      simp only [su2_inv, su2_nonunitarity]
      set r := su2_part_of_su3 s.2 g
      unfold Su2.n2 at hu
      have : k * (r.A*r.A + r.B*r.B + r.C*r.C + r.D*r.D) = k := by rw [hu, mul_one]
      nlinarith [this]
    · simp only [su2_nonunitarity, su2_inv]
      set r := su2_part_of_su3 s.2 g
      nlinarith [sq_nonneg (r.A - 1), sq_nonneg r.B, sq_nonneg r.C, sq_nonneg r.D]

end Nissa.Su3f
