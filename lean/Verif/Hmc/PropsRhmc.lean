import Verif.Hmc.Rhmc
import Mathlib.Analysis.InnerProductSpace.Spectrum

/-! # RHMC: functions of the operator of the pseudofermions (C57) -/

set_option linter.all false

namespace Nissa.Rhmc
open Nissa.Lx Nissa.Sten Nissa.Su3f Nissa.Gauge Nissa.GForce Nissa.LSm Nissa.StD Nissa.Back Nissa.CgF Nissa.Inv Nissa.QForce Nissa.Omel Matrix Complex
open Nissa.Remez (RatApprox Discretiz FlavSpec root_needed set_expansions up)
open scoped RealInnerProductSpace

noncomputable section

/-! ### Specification -/

/-- the rational function `c + sum_i w_i/(x+p_i)` -/
def ratFun (r : QForce.Rat) (x : ℝ) : ℝ := r.cons + (r.terms.map fun t => t.2 / (x + t.1)).sum

/-- the same function of the operator `D^+ D` of the links `V`, applied to a field of the even sites -/
def ratApply (g : Geo) (V : Coords → Quad) (r : QForce.Rat) (eta : Coords → Col) : Coords → Col :=
  r.cons • eta + (r.terms.map fun t => t.2 • sol g V t.1 eta).sum

/-- `lam` is an eigenvalue of `D^+ D` on the even sites -/
def Eig (g : Geo) (V : Coords → Quad) (lam : ℝ) : Prop :=
  ∃ chi : Coords → Col, (∃ c ∈ boxP g 0, chi c ≠ 0) ∧ ∀ c ∈ boxP g 0, kern g V 0 chi c = lam • chi c

section
variable {g : Geo} (ok : g.Ok) (eo : EoOk g)
include ok eo

theorem kernE_sym (V : Coords → Quad) : (kernE g V 0).IsSymmetric := fun x y => kernE_symm ok eo V 0 x y

theorem kernE_shift (V : Coords → Quad) (p : ℝ) (x : EV (↥(boxP g 0) × Fin 3)) : kernE g V p x = kernE g V 0 x + p • x := by
  obtain ⟨y, rfl⟩ : ∃ y, (evenView g).toE y = x := ⟨_, toE_fromE _ x⟩
  rw [kernE_toE ok eo, kernE_toE ok eo]
  ext ⟨⟨c, hc⟩, a⟩
  show kern g V p y c a = kern g V 0 y c a + p • y c a
  unfold kern
  simp only [Pi.sub_apply, Pi.smul_apply, zero_smul, Pi.zero_apply]
  ring

/-- basis of eigenvectors -/
def ebasis (V : Coords → Quad) := (kernE_sym ok eo V).eigenvectorBasis rfl
/-- the eigenvalues -/
def evals (V : Coords → Quad) := (kernE_sym ok eo V).eigenvalues rfl

theorem evals_apply (V : Coords → Quad) (k) : kernE g V 0 (ebasis ok eo V k) = evals ok eo V k • ebasis ok eo V k := by
  have := (kernE_sym ok eo V).apply_eigenvectorBasis rfl k
  exact this

theorem evals_nonneg (V : Coords → Quad) (k) : 0 ≤ evals ok eo V k := by
  have h := kernE_coer ok eo V 0 (ebasis ok eo V k)
  rw [evals_apply, real_inner_smul_right, real_inner_self_eq_norm_sq, (ebasis ok eo V).norm_eq_one] at h
  simpa using h

theorem evals_eig (V : Coords → Quad) (k) : Eig g V (evals ok eo V k) := by
  refine ⟨(evenView g).fromE (ebasis ok eo V k), ?_, ?_⟩
  · by_contra h
    push Not at h
    have h0 : (evenView g).toE ((evenView g).fromE (ebasis ok eo V k)) = (evenView g).toE 0 := (toE_eq ok eo).2 h
    rw [toE_fromE] at h0
    have h1 : ebasis ok eo V k = 0 := h0.trans (by ext ⟨⟨c, hc⟩, a⟩; rfl)
    have h2 := (ebasis ok eo V).norm_eq_one k
    rw [h1, norm_zero] at h2
    norm_num at h2
  · have h := evals_apply ok eo V k
    rw [← toE_fromE (evenView g) (ebasis ok eo V k), kernE_toE ok eo, toE_fromE] at h
    have h' : (evenView g).toE (kern g V 0 ((evenView g).fromE (ebasis ok eo V k))) =
        (evenView g).toE (evals ok eo V k • (evenView g).fromE (ebasis ok eo V k)) := by
      rw [h]
      ext ⟨⟨c, hc⟩, a⟩
      show _ = evals ok eo V k • (evenView g).fromE (ebasis ok eo V k) c a
      have := congrFun (congrArg WithLp.ofLp (toE_fromE (evenView g) (ebasis ok eo V k))) (⟨c, hc⟩, a)
      show evals ok eo V k • ((ebasis ok eo V) k).ofLp (⟨c, hc⟩, a) = _
      rw [← this]
      rfl
    exact (toE_eq ok eo).1 h'

theorem eig_nonneg {V : Coords → Quad} {lam : ℝ} (h : Eig g V lam) : 0 ≤ lam := by
  obtain ⟨chi, ⟨c0, hc0, hne⟩, hk⟩ := h
  have h1 := kernE_coer ok eo V 0 ((evenView g).toE chi)
  rw [kernE_toE ok eo] at h1
  have h2 : (evenView g).toE (kern g V 0 chi) = lam • (evenView g).toE chi := by
    ext ⟨⟨c, hc⟩, a⟩
    exact congrFun (hk c hc) a
  rw [h2, real_inner_smul_right, real_inner_self_eq_norm_sq, zero_mul] at h1
  have h3 : (evenView g).toE chi ≠ 0 := by
    intro h0
    apply hne
    have : (evenView g).toE chi = (evenView g).toE 0 := h0.trans (by ext ⟨⟨c, hc⟩, a⟩; rfl)
    exact (toE_eq ok eo).1 this c0 hc0
  have h4 : 0 < ‖(evenView g).toE chi‖ ^ 2 := by positivity
  by_contra hneg
  push Not at hneg
  nlinarith

/-- components of the solution -/
theorem coef_sol (V : Coords → Quad) {p : ℝ} (hp : 0 < p) (eta : Coords → Col) (k) :
    ⟪ebasis ok eo V k, (evenView g).toE (sol g V p eta)⟫ = ⟪ebasis ok eo V k, (evenView g).toE eta⟫ / (evals ok eo V k + p) := by
  have h := (solves_toE ok eo).1 (sol_solves ok eo V hp eta)
  rw [kernE_shift ok eo] at h
  rw [← h, inner_add_right, ← kernE_sym ok eo V, evals_apply, real_inner_smul_left, real_inner_smul_right, eq_div_iff]
  · ring
  · have := evals_nonneg ok eo V k
    linarith

omit ok eo in
theorem toE_add (x y : Coords → Col) : (evenView g).toE (x + y) = (evenView g).toE x + (evenView g).toE y := by
  ext ⟨⟨c, hc⟩, a⟩; rfl
omit ok eo in
theorem toE_rsmul (s : ℝ) (x : Coords → Col) : (evenView g).toE (s • x) = s • (evenView g).toE x := by
  ext ⟨⟨c, hc⟩, a⟩; rfl
omit ok eo in
theorem toE_list {α : Type} (l : List α) (f : α → Coords → Col) : (evenView g).toE (l.map f).sum = (l.map fun a => (evenView g).toE (f a)).sum := by
  induction l with
  | nil => ext ⟨⟨c, hc⟩, a⟩; rfl
  | cons a l ih => simp only [List.map_cons, List.sum_cons]; rw [toE_add, ih]

omit ok eo in
theorem inner_list {α : Type} {E : Type} [NormedAddCommGroup E] [InnerProductSpace ℝ E] (x : E) (l : List α) (f : α → E) : ⟪x, (l.map f).sum⟫ = (l.map fun a => ⟪x, f a⟫).sum := by
  induction l with
  | nil => simp
  | cons a l ih => simp only [List.map_cons, List.sum_cons]; rw [inner_add_right, ih]

theorem coef_apply (V : Coords → Quad) {r : QForce.Rat} (hr : r.Ok) (eta : Coords → Col) (k) :
    ⟪ebasis ok eo V k, (evenView g).toE (ratApply g V r eta)⟫ = ratFun r (evals ok eo V k) * ⟪ebasis ok eo V k, (evenView g).toE eta⟫ := by
  unfold ratApply ratFun
  rw [toE_add, toE_rsmul, toE_list, inner_add_right, inner_list, real_inner_smul_right, add_mul]
  congr 1
  rw [← List.sum_map_mul_right]
  refine congrArg List.sum (List.map_congr_left fun t ht => ?_)
  rw [toE_rsmul, real_inner_smul_right, coef_sol ok eo V (hr t ht)]
  ring

theorem re_dot_sum (V : Coords → Quad) (x y : Coords → Col) :
    (dot (boxP g 0) x y).re = ∑ k, ⟪ebasis ok eo V k, (evenView g).toE x⟫ * ⟪ebasis ok eo V k, (evenView g).toE y⟫ := by
  rw [← even_dot, ← toE_inner, ← (ebasis ok eo V).sum_inner_mul_inner]
  refine Finset.sum_congr rfl fun k _ => ?_
  rw [real_inner_comm]

theorem re_dot_apply (V : Coords → Quad) {r : QForce.Rat} (hr : r.Ok) (phi : Coords → Col) :
    actSpec g V r phi = (dot (boxP g 0) phi (ratApply g V r phi)).re := by
  unfold actSpec ratApply
  rw [dot_add, Complex.add_re, dot_smul, Complex.re_ofReal_mul]
  congr 1
  have : ∀ l : List (ℝ × ℝ), (l.map fun t => t.2 * (dot (boxP g 0) phi (sol g V t.1 phi)).re).sum = (dot (boxP g 0) phi (l.map fun t => t.2 • sol g V t.1 phi).sum).re := by
    intro l
    induction l with
    | nil => simp [StD.dot]
    | cons t l ih =>
      simp only [List.map_cons, List.sum_cons]
      rw [dot_add, Complex.add_re, dot_smul, Complex.re_ofReal_mul, ih]
  exact this _

/-- the action of the pseudofermion obtained applying a rational function to a field -/
theorem act_apply (V : Coords → Quad) {ra rg : QForce.Rat} (ha : ra.Ok) (hg : rg.Ok) (eta : Coords → Col) :
    actSpec g V ra (ratApply g V rg eta) =
      ∑ k, ratFun rg (evals ok eo V k) ^ 2 * ratFun ra (evals ok eo V k) * ⟪ebasis ok eo V k, (evenView g).toE eta⟫ ^ 2 := by
  rw [re_dot_apply ok eo V ha, re_dot_sum ok eo V]
  refine Finset.sum_congr rfl fun k _ => ?_
  rw [coef_apply ok eo V ha, coef_apply ok eo V hg]
  ring

theorem re_dot_self (V : Coords → Quad) (eta : Coords → Col) : (dot (boxP g 0) eta eta).re = ∑ k, ⟪ebasis ok eo V k, (evenView g).toE eta⟫ ^ 2 := by
  rw [re_dot_sum ok eo V]
  exact Finset.sum_congr rfl fun k _ => by ring

/-- C57: heat bath of the pseudofermions.  If on each eigenvalue of `D^+ D` the square of the function used to generate the pseudofermions
times the function of the action is 1 within `delta`, the action of the generated pseudofermion is the square norm of the noise, within
`delta`: with exact functions the probability `exp(-|eta|²)` of the noise is the one `exp(-S)` of the pseudofermion. -/
theorem C57_heat_bath (V : Coords → Quad) {ra rg : QForce.Rat} (ha : ra.Ok) (hg : rg.Ok) (eta : Coords → Col) (delta : ℝ)
    (h : ∀ lam, Eig g V lam → |ratFun rg lam ^ 2 * ratFun ra lam - 1| ≤ delta) :
    |actSpec g V ra (ratApply g V rg eta) - (dot (boxP g 0) eta eta).re| ≤ delta * (dot (boxP g 0) eta eta).re := by
  rw [act_apply ok eo V ha hg, re_dot_self ok eo V, ← Finset.sum_sub_distrib, Finset.mul_sum]
  refine (Finset.abs_sum_le_sum_abs _ _).trans (Finset.sum_le_sum fun k _ => ?_)
  rw [← sub_one_mul, abs_mul, abs_of_nonneg (sq_nonneg ⟪ebasis ok eo V k, (evenView g).toE eta⟫)]
  exact mul_le_mul_of_nonneg_right (h _ (evals_eig ok eo V k)) (sq_nonneg _)

end

end

end Nissa.Rhmc
