import Verif.Dirac.CgFields
import Verif.Dirac.PropsClover

/-! # Inverse of the twisted clover term

Models `invert_point_twisted_clover_term` (`/repo/src/operations/su3_paths/clover_term.hpp:162-253`), `invert_twisted_clover_term` (`:255-276`) and
`fill_point_twisted_clover_term` (`/repo/src/operations/su3_paths/clover_term.cpp:214-251`).  Exact real arithmetic: the tests on the residue and the limit on the
iterations are those of the code. -/

set_option linter.all false

namespace Nissa.InvCl
open Nissa.Lx Nissa.Sten Nissa.Su3f Nissa.Gauge Nissa.Gamma Nissa.StD Nissa.Wilson Nissa.EoP Nissa.Cg Nissa.CgF Matrix Complex
open scoped RealInnerProductSpace

noncomputable section

/-- value of a `halfspincolor` -/
abbrev HSC := Fin 2 → Col

/-- `halfspincolor_scal_prod`.  `/repo/src/new_types/su3_op.hpp:1712-1721` -/
def hsc_scal_prod (a b : HSC) : ℝ := ∑ id, ∑ ic, ((a id ic).re * (b id ic).re + (a id ic).im * (b id ic).im)

/-- `halfspincolor_summ_the_prod_double(a,b,c,d)`: `a=b+c*d`.  `/repo/src/new_types/su3_op.hpp:1727-1733` -/
def hsc_summ_prod (b c : HSC) (d : ℝ) : HSC := fun id ic => ⟨(b id ic).re + (c id ic).re * d, (b id ic).im + (c id ic).im * d⟩

/-- `apply_point_squared_twisted_clover_term_to_halfspincolor`.  `/repo/src/operations/su3_paths/clover_term.hpp:141-154` -/
def point_squared (mass kappa : ℝ) (c0 c1 : M3) (i : HSC) : HSC :=
  let temp := point_twisted mass kappa c0 c1 i
  point_twisted (-mass) kappa c0 c1 temp

/-- the variables of the loop: `x`, `r`, `p`, `rr` -/
structure PSt where
  x : HSC
  r : HSC
  p : HSC
  rr : ℝ

/-- why the computation of a column does not give a meaningful result: too many iterations (the program is stopped), or a division by zero (the column is
filled with not-a-number and the loop is left silently, as the comparison with the target fails) -/
inductive Stop | tooMany | nan
  deriving DecidableEq

/-- body of the loop.  `/repo/src/operations/su3_paths/clover_term.hpp:197-217` -/
def pstep (A : HSC → HSC) (s : PSt) : Option PSt :=
  let ap := A s.p
  let pap := hsc_scal_prod s.p ap
  if pap = 0 ∨ s.rr = 0 then none else
  let alpha := s.rr / pap
  let roro := s.rr
  let x := hsc_summ_prod s.x s.p (alpha)
  let r := hsc_summ_prod s.r ap (-alpha)
  let rr := hsc_scal_prod r r
  let beta := rr / roro
  let p := hsc_summ_prod r s.p beta
  some ⟨x, r, p, rr⟩

/-- the loop `do ... while(res>=target_res and iter<niter_max)` with the check which follows it; `iter` is the value of the counter at the beginning of the body.
`/repo/src/operations/su3_paths/clover_term.hpp:188-234` -/
def ploop (A : HSC → HSC) (niter_max : Nat) (target_res ori_rr : ℝ) (iter : Nat) (s : PSt) : Except Stop HSC :=
  match pstep A s with
  | none => .error .nan
  | some s' =>
    let res := s'.rr / ori_rr
    open Classical in
    if res ≥ target_res ∧ iter + 1 < niter_max then ploop A niter_max target_res ori_rr (iter + 1) s'
    else if iter + 1 ≥ niter_max then .error .tooMany else .ok s'.x
termination_by niter_max - iter

/-- the point source -/
def point_source (x_id : Fin 2) (x_ic : Fin 3) : HSC := fun id ic => if id = x_id ∧ ic = x_ic then 1 else 0

/-- the column `(x_id,x_ic)` of the block whose elements of the clover term are `c0`, `c1`.
`/repo/src/operations/su3_paths/clover_term.hpp:172-251` -/
def invert_column (mass kappa : ℝ) (c0 c1 : M3) (x_id : Fin 2) (x_ic : Fin 3) : Except Stop HSC :=
  let b := point_source x_id x_ic
  let ori_rr := hsc_scal_prod b b
  match ploop (point_squared mass kappa c0 c1) 200 1e-32 ori_rr 1 ⟨0, b, b, 1⟩ with
  | .error e => .error e
  | .ok x => .ok (point_twisted (-mass) kappa c0 c1 x)

/-- `invert_point_twisted_clover_term`: `inv` holds the result if all the columns are computed.
`/repo/src/operations/su3_paths/clover_term.hpp:162-253` -/
def IsInverse (mass kappa : ℝ) (Cl : Clov) (inv : InvClov) : Prop :=
  ∀ (hl x_id : Fin 2) (x_ic : Fin 3), invert_column mass kappa (if hl = 0 then Cl 0 else Cl 2) (if hl = 0 then Cl 1 else Cl 3) x_id x_ic =
    .ok (fun id ic => inv hl id ic x_id x_ic)

/-- `fill_point_twisted_clover_term`, as written: the four `fill` and the sum of the diagonal.
`/repo/src/operations/su3_paths/clover_term.cpp:231-251` -/
def fill_point_twisted (x_high_low : Fin 2) (C : Clov) (mass kappa : ℝ) : Fin 2 → Fin 3 → Fin 2 → Fin 3 → ℂ :=
  let c0 := if x_high_low = 0 then C 0 else C 2
  let c1 := if x_high_low = 0 then C 1 else C 3
  let f := fun (z : ℂ) (fr fi : ℝ) => (⟨z.re * fr, z.im * fi⟩ : ℂ)
  let mt : ℂ := ⟨1 / (2 * kappa), if x_high_low = 0 then mass else -mass⟩
  fun id1 ic1 id2 ic2 =>
    (![![f (c0 ic1 ic2) 1 1, f (c1 ic2 ic1) 1 (-1)], ![f (c1 ic1 ic2) 1 1, f (c0 ic1 ic2) (-1) (-1)]] : Fin 2 → Fin 2 → ℂ) id1 id2 +
      (if id1 = id2 ∧ ic1 = ic2 then mt else 0)

/-! ### The loop is the conjugate gradient -/

/-- a halfspincolor as vector -/
def hscView : View HSC (Fin 2 × Fin 3) where
  comp := { toFun := fun x i => x i.1 i.2, map_add' := fun _ _ => rfl, map_smul' := fun _ _ => rfl }
  ofVec := { toFun := fun v id ic => v (id, ic), map_add' := fun _ _ => rfl, map_smul' := fun _ _ => rfl }
  right := fun v => rfl

theorem hsc_dot (a b : HSC) : hsc_scal_prod a b = (hscView.dot a b).re := by
  unfold hsc_scal_prod View.dot
  rw [Complex.re_sum, Fintype.sum_prod_type]
  refine Finset.sum_congr rfl fun i _ => Finset.sum_congr rfl fun c _ => ?_
  show _ = (star (a i c) * b i c).re
  simp

theorem fromE_toE (x : HSC) : hscView.fromE (hscView.toE x) = x := rfl

theorem toE_summ (b c : HSC) (d : ℝ) : hscView.toE (hsc_summ_prod b c d) = hscView.toE b + d • hscView.toE c := by
  ext i
  show hsc_summ_prod b c d i.1 i.2 = b i.1 i.2 + d • c i.1 i.2
  apply Complex.ext <;> simp [hsc_summ_prod] <;> ring

/-- the state as that of the conjugate gradient -/
def toState (s : PSt) : Cg.State (EV (Fin 2 × Fin 3)) := ⟨hscView.toE s.x, hscView.toE s.p, hscView.toE s.r, s.rr⟩

theorem pstep_iterate (A : HSC → HSC) (s : PSt) :
    (pstep A s).map toState = Cg.iterate (fun v => hscView.toE (A (hscView.fromE v))) (toState s) := by
  have e1 : hscView.toE (A (hscView.fromE (toState s).p)) = hscView.toE (A s.p) := rfl
  have e2 : (⟪hscView.toE (A s.p), (toState s).p⟫ : ℝ) = hsc_scal_prod s.p (A s.p) := by
    show (⟪hscView.toE (A s.p), hscView.toE s.p⟫ : ℝ) = _
    rw [real_inner_comm, toE_inner, hsc_dot]
  unfold pstep Cg.iterate
  simp only [e1, e2]
  by_cases h1 : hsc_scal_prod s.p (A s.p) = 0
  · rw [if_pos (Or.inl h1), if_pos h1]; rfl
  · by_cases h2 : s.rr = 0
    · rw [if_pos (Or.inr h2), if_neg h1, if_pos (show (toState s).delta = 0 from h2)]; rfl
    · rw [if_neg (by tauto), if_neg h1, if_neg (show (toState s).delta ≠ 0 from h2)]
      simp only [Option.map_some, Option.some.injEq]
      have er : hscView.toE (hsc_summ_prod s.r (A s.p) (-(s.rr / hsc_scal_prod s.p (A s.p)))) =
          (toState s).r - ((toState s).delta / hsc_scal_prod s.p (A s.p)) • hscView.toE (A s.p) := by
        rw [toE_summ, neg_smul, ← sub_eq_add_neg]; rfl
      unfold toState at *
      simp only at *
      rw [← er, toE_inner, ← hsc_dot, toE_summ, toE_summ _ s.p]

theorem ploop_loop (A : HSC → HSC) (n : Nat) (bound : ℝ) (s : PSt) (iter : Nat) (hi : iter < n) :
    ploop A (n + 1) bound 1 (iter + 1) s =
      match Cg.loop (fun v => hscView.toE (A (hscView.fromE v))) n bound iter (toState s) with
      | .error _ => .error .nan
      | .ok (st, m) => if m = n then .error .tooMany else .ok (hscView.fromE st.sol) := by
  induction hm : n - iter generalizing iter s with
  | zero => omega
  | succ m ih =>
    rw [ploop, Cg.loop, ← pstep_iterate]
    cases hp : pstep A s with
    | none => rfl
    | some s' =>
      simp only [Option.map_some, div_one]
      by_cases h : s'.rr ≥ bound ∧ iter + 1 + 1 < n + 1
      · rw [if_pos h, if_pos (⟨h.1, by omega⟩ : (toState s').delta ≥ bound ∧ iter + 1 < n)]
        exact ih s' (iter + 1) (by omega) (by omega)
      · rw [if_neg h, if_neg (fun h' : (toState s').delta ≥ bound ∧ iter + 1 < n => h ⟨h'.1, by omega⟩)]
        simp only
        by_cases h3 : iter + 1 = n
        · rw [if_pos (by omega), if_pos h3]
        · rw [if_neg (by omega), if_neg h3]; rfl

/-! ### The twisted clover block -/

theorem twisted_add (m k : ℝ) (c0 c1 : M3) (x y : HSC) : point_twisted m k c0 c1 (x + y) = point_twisted m k c0 c1 x + point_twisted m k c0 c1 y := by
  unfold point_twisted
  funext i
  fin_cases i <;> simp [mulVec_add, smul_add] <;> abel

theorem twisted_smul (m k : ℝ) (c0 c1 : M3) (a : ℂ) (x : HSC) : point_twisted m k c0 c1 (a • x) = a • point_twisted m k c0 c1 x := by
  unfold point_twisted
  funext i
  fin_cases i <;> simp [mulVec_smul, smul_add, smul_sub, smul_comm a]

theorem twisted_split (m k : ℝ) (c0 c1 : M3) (y : HSC) : point_twisted m k c0 c1 y = point_twisted 0 k c0 c1 y + ((m : ℂ) * I) • y := by
  unfold point_twisted
  have e : (⟨1 / (2 * k), m⟩ : ℂ) = (⟨1 / (2 * k), 0⟩ : ℂ) + (m : ℂ) * I := by apply Complex.ext <;> simp
  funext i
  fin_cases i <;> simp only [e, add_smul] <;> simp <;> abel

theorem twisted_comm (m k : ℝ) (c0 c1 : M3) (x : HSC) :
    point_twisted m k c0 c1 (point_twisted (-m) k c0 c1 x) = point_twisted (-m) k c0 c1 (point_twisted m k c0 c1 x) := by
  rw [twisted_split m k c0 c1 (point_twisted (-m) k c0 c1 x), twisted_split (-m) k c0 c1 (point_twisted m k c0 c1 x), twisted_split (-m) k c0 c1 x,
    twisted_split m k c0 c1 x, twisted_add, twisted_smul, twisted_add, twisted_smul]
  generalize point_twisted 0 k c0 c1 (point_twisted 0 k c0 c1 x) = u
  generalize point_twisted 0 k c0 c1 x = v
  push_cast
  module

theorem dot_ip (a b : HSC) : hscView.dot a b = star (a 0) ⬝ᵥ b 0 + star (a 1) ⬝ᵥ b 1 := by
  unfold View.dot
  rw [Fintype.sum_prod_type, Fin.sum_univ_two]
  rfl

theorem mv_adj (A : M3) (u v : Col) : star (A *ᵥ u) ⬝ᵥ v = star u ⬝ᵥ (Aᴴ *ᵥ v) := by
  rw [star_mulVec, dotProduct_mulVec]

/-- for a hermitian clover term the adjoint is obtained by flipping the mass -/
theorem twisted_adjoint (m k : ℝ) (c0 c1 : M3) (h : c0ᴴ = c0) (x y : HSC) :
    hscView.dot (point_twisted m k c0 c1 x) y = hscView.dot x (point_twisted (-m) k c0 c1 y) := by
  rw [dot_ip, dot_ip]
  unfold point_twisted
  simp only [cons_val_zero, cons_val_one, star_add, star_sub, star_smul, add_dotProduct, sub_dotProduct, dotProduct_add, dotProduct_sub, smul_dotProduct,
    dotProduct_smul, mv_adj, h, conjTranspose_conjTranspose, smul_eq_mul]
  have e : star (⟨1 / (2 * k), m⟩ : ℂ) = ⟨1 / (2 * k), -m⟩ := by apply Complex.ext <;> simp
  rw [e]
  ring

theorem squared_lin (m k : ℝ) (c0 c1 : M3) : Lin hscView (point_squared m k c0 c1) where
  add x y := by
    have : point_squared m k c0 c1 (x + y) = point_squared m k c0 c1 x + point_squared m k c0 c1 y := by
      unfold point_squared; simp only [twisted_add]
    rw [this, map_add]
  smul s x := by
    have : point_squared m k c0 c1 (s • x) = s • point_squared m k c0 c1 x := by
      unfold point_squared; simp only [twisted_smul]
    rw [this, map_smul]

theorem squared_form (m k : ℝ) (c0 c1 : M3) (h : c0ᴴ = c0) (x y : HSC) :
    hscView.dot (point_squared m k c0 c1 x) y = hscView.dot (point_twisted m k c0 c1 x) (point_twisted m k c0 c1 y) := by
  unfold point_squared
  simp only
  rw [twisted_adjoint _ _ _ _ h, neg_neg]

theorem squared_symm (m k : ℝ) (c0 c1 : M3) (h : c0ᴴ = c0) (x y : HSC) :
    hscView.dot (point_squared m k c0 c1 x) y = hscView.dot x (point_squared m k c0 c1 y) := by
  rw [squared_form m k c0 c1 h, twisted_adjoint _ _ _ _ h]; rfl

theorem source_dot (i : Fin 2) (a : Fin 3) : hscView.dot (point_source i a) (point_source i a) = 1 := by
  unfold View.dot
  rw [Finset.sum_eq_single (i, a)]
  · show star (point_source i a i a) * point_source i a i a = 1
    simp [point_source]
  · rintro ⟨j, b⟩ - hne
    show star (point_source i a j b) * point_source i a j b = 0
    have : ¬ (j = i ∧ b = a) := fun h => hne (Prod.ext h.1 h.2)
    simp [point_source, this]
  · intro h; exact absurd (Finset.mem_univ _) h

/-- a column is the result of the conjugate gradient, with at most 198 iterations, with the adjoint applied to it -/
theorem column_cg (m k : ℝ) (c0 c1 : M3) (i : Fin 2) (a : Fin 3) :
    (∀ t, invert_column m k c0 c1 i a = .ok t ↔ ∃ x, cgField hscView none (point_squared m k c0 c1) 199 1e-32 (point_source i a) = .ok x ∧
      t = point_twisted (-m) k c0 c1 x) := by
  intro t
  have hn : (⟪hscView.toE (point_source i a), hscView.toE (point_source i a)⟫ : ℝ) = 1 := by rw [toE_inner, source_dot]; rfl
  have h0 : point_squared m k c0 c1 0 = 0 := by
    unfold point_squared
    simp only
    have : ∀ m, point_twisted m k c0 c1 0 = 0 := fun m => by
      have := twisted_smul m k c0 c1 0 0
      simpa using this
    rw [this, this]
  have hs : toState ⟨0, point_source i a, point_source i a, 1⟩ =
      Cg.init (fun v => hscView.toE (point_squared m k c0 c1 (hscView.fromE v))) (Option.map hscView.toE none) (hscView.toE (point_source i a)) := by
    have e0 : hscView.toE (point_squared m k c0 c1 (hscView.fromE 0)) = 0 := by
      have : hscView.fromE 0 = (0 : HSC) := rfl
      rw [this, h0]; rfl
    unfold Cg.init toState
    simp only [Option.map_none, e0, sub_zero, hn]
    rfl
  unfold invert_column cgField cgInvert
  simp only
  rw [show hsc_scal_prod (point_source i a) (point_source i a) = 1 by rw [hsc_dot, source_dot]; rfl, hn, if_neg one_ne_zero,
    ploop_loop _ 199 1e-32 _ 0 (by norm_num), hs, mul_one]
  cases Cg.loop (fun v => hscView.toE (point_squared m k c0 c1 (hscView.fromE v))) 199 1e-32 0
    (Cg.init (fun v => hscView.toE (point_squared m k c0 c1 (hscView.fromE v))) (Option.map hscView.toE none) (hscView.toE (point_source i a))) with
  | error c => simp
  | ok v =>
    obtain ⟨st, n⟩ := v
    simp only
    by_cases h : n = 199
    · rw [if_pos h, if_pos h]; simp
    · rw [if_neg h, if_neg h]
      simp [eq_comm]

/-! ### The properties -/

/-- the block `1/(2 kappa) + i mass + clover` for `hl` = 0 (the first two spin components) or 1 (the last two), written in terms of the clover term -/
def blockSpec (mass kappa : ℝ) (Cl : Clov) (hl : Fin 2) (v : HSC) : HSC := fun i =>
  (((1 / (2 * kappa) : ℝ) : ℂ) + (mass : ℂ) * I) • v i + ∑ j : Fin 2, cloverBlock Cl (if hl = 0 then ![0, 1] i else ![2, 3] i) (if hl = 0 then ![0, 1] j else ![2, 3] j) *ᵥ v j

theorem block_eq (mass kappa : ℝ) (Cl : Clov) (hl : Fin 2) (v : HSC) :
    point_twisted mass kappa (if hl = 0 then Cl 0 else Cl 2) (if hl = 0 then Cl 1 else Cl 3) v = blockSpec mass kappa Cl hl v := by
  have e : (⟨1 / (2 * kappa), mass⟩ : ℂ) = ((1 / (2 * kappa) : ℝ) : ℂ) + (mass : ℂ) * I := by apply Complex.ext <;> simp
  unfold point_twisted blockSpec
  rw [e]
  funext i
  fin_cases hl <;> fin_cases i <;> simp [cloverBlock, Fin.sum_univ_two, add_assoc, sub_eq_add_neg, neg_mulVec]

/-- squared norm of a halfspincolor -/
def hnorm2 (v : HSC) : ℝ := ∑ i, ∑ a, Complex.normSq (v i a)

theorem hnorm2_dot (v : HSC) : hnorm2 v = (hscView.dot v v).re := by
  rw [← hsc_dot]
  rfl

/-- C44: if the computation of a column ends, the column solves the linear system up to the requested residue -/
theorem C44_column_residue (mass kappa : ℝ) (Cl : Clov) (hl x_id : Fin 2) (x_ic : Fin 3) (col : HSC)
    (h : invert_column mass kappa (if hl = 0 then Cl 0 else Cl 2) (if hl = 0 then Cl 1 else Cl 3) x_id x_ic = .ok col) :
    hnorm2 (blockSpec mass kappa Cl hl col - fun i a => if i = x_id ∧ a = x_ic then 1 else 0) < 1e-32 := by
  obtain ⟨x, hx, rfl⟩ := (column_cg _ _ _ _ _ _ _).1 h
  have := cgField_converged hscView _ (squared_lin _ _ _ _) none 199 (by norm_num) _ _ _ hx
  rw [source_dot] at this
  rw [← block_eq, twisted_comm]
  rw [hnorm2_dot]
  have e : ∀ u v : HSC, hscView.dot (u - v) (u - v) = hscView.dot (v - u) (v - u) := by
    intro u v
    rw [← neg_sub v u]
    unfold View.dot
    refine Finset.sum_congr rfl fun i _ => ?_
    simp only [map_neg, map_sub, Pi.neg_apply, Pi.sub_apply, star_neg, star_sub]
    ring
  rw [show (fun i a => if i = x_id ∧ a = x_ic then 1 else 0 : HSC) = point_source x_id x_ic from rfl, e]
  simpa [point_squared] using this

/-- C44: for a hermitian clover term whose block is invertible every column is computed -/
theorem C44_returns (mass kappa : ℝ) (Cl : Clov) (hCl : ClHerm Cl) (hinj : ∀ hl v, blockSpec mass kappa Cl hl v = 0 → v = 0) :
    ∃ inv : InvClov, IsInverse mass kappa Cl inv := by
  have key : ∀ (hl x_id : Fin 2) (x_ic : Fin 3), ∃ t : HSC,
      invert_column mass kappa (if hl = 0 then Cl 0 else Cl 2) (if hl = 0 then Cl 1 else Cl 3) x_id x_ic = .ok t := by
    intro hl x_id x_ic
    have hh : (if hl = 0 then Cl 0 else Cl 2)ᴴ = (if hl = 0 then Cl 0 else Cl 2) := by
      by_cases e : hl = 0
      · rw [if_pos e]; exact hCl.1
      · rw [if_neg e]; exact hCl.2
    obtain ⟨x, hx⟩ := cgField_terminates hscView _ (squared_lin mass kappa (if hl = 0 then Cl 0 else Cl 2) (if hl = 0 then Cl 1 else Cl 3))
      (squared_symm _ _ _ _ hh) (fun x hx => by
        rw [squared_form _ _ _ _ hh]
        refine dot_self_pos _ _ fun h0 => hx ?_
        have h1 : point_twisted mass kappa (if hl = 0 then Cl 0 else Cl 2) (if hl = 0 then Cl 1 else Cl 3) x = 0 := by
          funext i a; exact congrFun h0 (i, a)
        rw [block_eq] at h1
        rw [hinj hl x h1]; rfl) 199 (by simp) 1e-32 (by norm_num) (point_source x_id x_ic) (fun h0 => by
          have := congrFun h0 (x_id, x_ic)
          have e : hscView.comp (point_source x_id x_ic) (x_id, x_ic) = point_source x_id x_ic x_id x_ic := rfl
          rw [e] at this
          simp [point_source] at this)
    exact ⟨_, (column_cg _ _ _ _ _ _ _).2 ⟨x, hx, rfl⟩⟩
  choose t ht using key
  exact ⟨fun hl id ic x_id x_ic => t hl x_id x_ic id ic, ht⟩

/-- C44: a nonvanishing mass makes the blocks invertible -/
theorem C44_mass_invertible (mass kappa : ℝ) (hm : mass ≠ 0) (Cl : Clov) (hCl : ClHerm Cl) (hl : Fin 2) (v : HSC) (h : blockSpec mass kappa Cl hl v = 0) : v = 0 := by
  have hh : (if hl = 0 then Cl 0 else Cl 2)ᴴ = (if hl = 0 then Cl 0 else Cl 2) := by
    by_cases e : hl = 0
    · rw [if_pos e]; exact hCl.1
    · rw [if_neg e]; exact hCl.2
  rw [← block_eq] at h
  have h1 := twisted_adjoint mass kappa _ (if hl = 0 then Cl 1 else Cl 3) hh v v
  have hz : hscView.dot (0 : HSC) v = 0 := by unfold View.dot; simp
  have hs : hscView.dot v (0 : HSC) = 0 := by unfold View.dot; simp
  have h2 : point_twisted (-mass) kappa (if hl = 0 then Cl 0 else Cl 2) (if hl = 0 then Cl 1 else Cl 3) v = ((-2 * mass : ℝ) * I : ℂ) • v := by
    have e1 := twisted_split mass kappa (if hl = 0 then Cl 0 else Cl 2) (if hl = 0 then Cl 1 else Cl 3) v
    have e2 := twisted_split (-mass) kappa (if hl = 0 then Cl 0 else Cl 2) (if hl = 0 then Cl 1 else Cl 3) v
    rw [h] at e1
    have e3 : point_twisted 0 kappa (if hl = 0 then Cl 0 else Cl 2) (if hl = 0 then Cl 1 else Cl 3) v = -(((mass : ℂ) * I) • v) := by
      rw [eq_neg_iff_add_eq_zero]; exact e1.symm
    rw [e2, e3]
    push_cast
    module
  rw [h, h2, hz] at h1
  have h3 : hscView.dot v (((-2 * mass : ℝ) * I : ℂ) • v) = ((-2 * mass : ℝ) * I : ℂ) * hscView.dot v v := by
    unfold View.dot
    rw [Finset.mul_sum]
    refine Finset.sum_congr rfl fun i _ => ?_
    rw [map_smul, Pi.smul_apply, smul_eq_mul]
    ring
  rw [h3] at h1
  have h4 : hscView.dot v v = 0 := by
    rcases mul_eq_zero.1 h1.symm with h5 | h5
    · rcases mul_eq_zero.1 h5 with h6 | h6
      · exact absurd (by exact_mod_cast h6 : -2 * mass = 0) (by simpa using hm)
      · exact absurd h6 I_ne_zero
    · exact h5
  by_contra hv
  have := dot_self_pos hscView v (fun h0 => hv (by funext i a; exact congrFun h0 (i, a)))
  rw [h4] at this
  simp at this

theorem block_sum (mass kappa : ℝ) (Cl : Clov) (hl : Fin 2) (w : Fin 2 × Fin 3 → HSC) (v : Fin 2 × Fin 3 → ℂ) :
    blockSpec mass kappa Cl hl (∑ j, v j • w j) = ∑ j, v j • blockSpec mass kappa Cl hl (w j) := by
  let A : HSC →ₗ[ℂ] HSC :=
    { toFun := fun x => point_twisted mass kappa (if hl = 0 then Cl 0 else Cl 2) (if hl = 0 then Cl 1 else Cl 3) x
      map_add' := fun x y => twisted_add _ _ _ _ x y
      map_smul' := fun a x => twisted_smul _ _ _ _ a x }
  have e : ∀ x, blockSpec mass kappa Cl hl x = A x := fun x => (block_eq _ _ _ _ _).symm
  simp only [e, map_sum, map_smul]

/-- a matrix whose columns are small is small -/
theorem small (R : Fin 2 × Fin 3 → HSC) (e : ℝ) (h : ∀ j, hnorm2 (R j) ≤ e) (v : Fin 2 × Fin 3 → ℂ) :
    hnorm2 (∑ j, v j • R j) ≤ 6 * e * ∑ j, Complex.normSq (v j) := by
  have cs : ∀ i a, Complex.normSq ((∑ j, v j • R j) i a) ≤ (∑ j, Complex.normSq (v j)) * ∑ j, Complex.normSq (R j i a) := by
    intro i a
    have h1 : (∑ j, v j • R j) i a = ∑ j, v j * R j i a := by simp [Finset.sum_apply]
    rw [h1, Complex.normSq_eq_norm_sq]
    have h2 : ‖∑ j, v j * R j i a‖ ≤ ∑ j, ‖v j‖ * ‖R j i a‖ := (norm_sum_le _ _).trans (le_of_eq (by simp))
    have h3 := Finset.sum_mul_sq_le_sq_mul_sq Finset.univ (fun j => ‖v j‖) (fun j => ‖R j i a‖)
    calc ‖∑ j, v j * R j i a‖ ^ 2 ≤ (∑ j, ‖v j‖ * ‖R j i a‖) ^ 2 := by gcongr
      _ ≤ _ := by simpa [Complex.normSq_eq_norm_sq] using h3
  have h0 : 0 ≤ ∑ j, Complex.normSq (v j) := Finset.sum_nonneg fun _ _ => Complex.normSq_nonneg _
  calc hnorm2 (∑ j, v j • R j) ≤ ∑ i : Fin 2, ∑ a : Fin 3, (∑ j, Complex.normSq (v j)) * ∑ j, Complex.normSq (R j i a) :=
        Finset.sum_le_sum fun i _ => Finset.sum_le_sum fun a _ => cs i a
    _ = (∑ j, Complex.normSq (v j)) * ∑ j, hnorm2 (R j) := by
        simp only [← Finset.mul_sum]
        congr 1
        unfold hnorm2
        rw [Finset.sum_comm]
        simp only [Finset.sum_comm (s := Finset.univ (α := Fin 2))]
        rw [Finset.sum_comm]
    _ ≤ (∑ j, Complex.normSq (v j)) * ∑ j : Fin 2 × Fin 3, e := by
        refine mul_le_mul_of_nonneg_left (Finset.sum_le_sum fun j _ => h j) h0
    _ = _ := by simp; ring

/-- C44: the computed matrix is the inverse of the block, up to the residue -/
theorem C44_inverse (mass kappa : ℝ) (Cl : Clov) (inv : InvClov) (h : IsInverse mass kappa Cl inv) (hl : Fin 2) (v : HSC) :
    hnorm2 (blockSpec mass kappa Cl hl (half_times (inv hl) v) - v) ≤ 6 * 1e-32 * hnorm2 v := by
  have hv : half_times (inv hl) v = ∑ j : Fin 2 × Fin 3, v j.1 j.2 • (fun id ic => inv hl id ic j.1 j.2 : HSC) := by
    funext i a
    rw [Finset.sum_apply, Finset.sum_apply, Fintype.sum_prod_type]
    unfold half_times
    refine Finset.sum_congr rfl fun j _ => Finset.sum_congr rfl fun c _ => ?_
    simp [mul_comm]
  have hid : v = ∑ j : Fin 2 × Fin 3, v j.1 j.2 • (point_source j.1 j.2) := by
    funext i a
    rw [Finset.sum_apply, Finset.sum_apply, Finset.sum_eq_single (i, a)]
    · simp [point_source]
    · rintro ⟨j, b⟩ - hne
      have : ¬ (i = j ∧ a = b) := fun h => hne (Prod.ext h.1.symm h.2.symm)
      simp [point_source, this]
    · intro h; exact absurd (Finset.mem_univ _) h
  have e : blockSpec mass kappa Cl hl (half_times (inv hl) v) - v =
      ∑ j : Fin 2 × Fin 3, v j.1 j.2 • (blockSpec mass kappa Cl hl (fun id ic => inv hl id ic j.1 j.2) - point_source j.1 j.2) := by
    rw [hv, block_sum mass kappa Cl hl _ (fun j => v j.1 j.2)]
    simp only [smul_sub, Finset.sum_sub_distrib]
    rw [← hid]
  rw [e]
  refine (small _ 1e-32 (fun j => (C44_column_residue mass kappa Cl hl j.1 j.2 _ (h hl j.1 j.2)).le) (fun j => v j.1 j.2)).trans (le_of_eq ?_)
  rw [Fintype.sum_prod_type]; rfl

/-- C44: the adjoint of the computed matrix, which the operator uses for the second block, inverts the block with opposite mass from the left, up to the residue -/
theorem C44_adjoint_inverse (mass kappa : ℝ) (Cl : Clov) (hCl : ClHerm Cl) (inv : InvClov) (h : IsInverse mass kappa Cl inv) (hl : Fin 2) (v : HSC) :
    hnorm2 (half_dag_times (inv hl) (blockSpec (-mass) kappa Cl hl v) - v) ≤ 6 * 1e-32 * hnorm2 v := by
  have hh : (if hl = 0 then Cl 0 else Cl 2)ᴴ = (if hl = 0 then Cl 0 else Cl 2) := by
    by_cases e : hl = 0
    · rw [if_pos e]; exact hCl.1
    · rw [if_neg e]; exact hCl.2
  have hd : ∀ u w : HSC, hscView.dot (half_dag_times (inv hl) u) w = hscView.dot u (half_times (inv hl) w) := by
    intro u w
    unfold View.dot half_dag_times half_times
    show ∑ i : Fin 2 × Fin 3, star (∑ j, ∑ c, star (inv hl j c i.1 i.2) * u j c) * w i.1 i.2 = ∑ i : Fin 2 × Fin 3, star (u i.1 i.2) * ∑ j, ∑ c, inv hl i.1 i.2 j c * w j c
    simp only [Fintype.sum_prod_type, star_sum, star_add, star_mul', star_star, Fin.sum_univ_two, Fin.sum_univ_three]
    ring
  set w := half_dag_times (inv hl) (blockSpec (-mass) kappa Cl hl v) - v with hw
  have key : hscView.dot w w = hscView.dot v (blockSpec mass kappa Cl hl (half_times (inv hl) w) - w) := by
    have dsub : ∀ a b c : HSC, hscView.dot (a - b) c = hscView.dot a c - hscView.dot b c := by
      intro a b c
      unfold View.dot
      rw [← Finset.sum_sub_distrib]
      refine Finset.sum_congr rfl fun i _ => ?_
      simp only [map_sub, Pi.sub_apply, star_sub]; ring
    have dsub' : ∀ a b c : HSC, hscView.dot c (a - b) = hscView.dot c a - hscView.dot c b := by
      intro a b c
      unfold View.dot
      rw [← Finset.sum_sub_distrib]
      refine Finset.sum_congr rfl fun i _ => ?_
      simp only [map_sub, Pi.sub_apply]; ring
    have e0 : hscView.dot w w = hscView.dot (half_dag_times (inv hl) (blockSpec (-mass) kappa Cl hl v) - v) w := rfl
    rw [e0]
    have e1 := twisted_adjoint (-mass) kappa _ (if hl = 0 then Cl 1 else Cl 3) hh v (half_times (inv hl) w)
    rw [neg_neg, block_eq, block_eq] at e1
    rw [dsub, hd, e1, ← dsub']
  have b1 := C44_inverse mass kappa Cl inv h hl w
  rw [hnorm2_dot, hnorm2_dot, ← toE_norm, ← toE_norm] at b1
  rw [hnorm2_dot, hnorm2_dot, ← toE_norm, ← toE_norm]
  have c1 : ‖hscView.toE w‖ ^ 2 ≤ ‖hscView.toE v‖ * ‖hscView.toE (blockSpec mass kappa Cl hl (half_times (inv hl) w) - w)‖ := by
    rw [toE_norm, key, ← toE_inner]
    exact real_inner_le_norm _ _
  set a := ‖hscView.toE w‖
  set b := ‖hscView.toE v‖
  set c := ‖hscView.toE (blockSpec mass kappa Cl hl (half_times (inv hl) w) - w)‖
  have ha : 0 ≤ a := norm_nonneg _
  have hb : 0 ≤ b := norm_nonneg _
  have hc : 0 ≤ c := norm_nonneg _
  rcases ha.eq_or_lt with h0 | h0
  · rw [← h0]
    have : 0 ≤ 6 * 1e-32 * b ^ 2 := by positivity
    simpa using this
  · have h4 : (a ^ 2) ^ 2 ≤ b ^ 2 * (6 * 1e-32 * a ^ 2) := by
      calc (a ^ 2) ^ 2 ≤ (b * c) ^ 2 := by gcongr
        _ = b ^ 2 * c ^ 2 := by ring
        _ ≤ _ := by gcongr
    have h5 : 0 < a ^ 2 := by positivity
    have h6 : a ^ 2 * a ^ 2 ≤ (6 * 1e-32 * b ^ 2) * a ^ 2 := by nlinarith [h4]
    exact le_of_mul_le_mul_right h6 h5

/-- C44: the filled matrix is that of the block, with the mass of sign opposite on the second one -/
theorem C44_fill (hl : Fin 2) (Cl : Clov) (mass kappa : ℝ) (v : HSC) :
    half_times (fill_point_twisted hl Cl mass kappa) v = blockSpec (if hl = 0 then mass else -mass) kappa Cl hl v := by
  rw [← block_eq]
  unfold fill_point_twisted half_times point_twisted
  funext i a
  have e1 : ∀ z : ℂ, (⟨z.re * 1, z.im * 1⟩ : ℂ) = z := fun z => by simp
  have e2 : ∀ z : ℂ, (⟨z.re * 1, z.im * -1⟩ : ℂ) = star z := fun z => by apply Complex.ext <;> simp
  have e3 : ∀ z : ℂ, (⟨z.re * -1, z.im * -1⟩ : ℂ) = -z := fun z => by apply Complex.ext <;> simp
  simp only [e1, e2, e3]
  fin_cases i <;> fin_cases a <;> simp [Fin.sum_univ_two, Fin.sum_univ_three, mulVec, dotProduct, conjTranspose_apply] <;> ring

/-- C44, violation: for a singular block (here with hermitian clover term and no mass) the loop is left with not-a-number in the column, without any message -/
theorem C44_violated_singular (kappa : ℝ) : ∃ Cl : Clov, ClHerm Cl ∧ invert_column 0 kappa (Cl 0) (Cl 1) 0 0 = .error .nan := by
  refine ⟨fun i => if i = 0 then ((-(1 / (2 * kappa)) : ℝ) : ℂ) • (1 : M3) else 0, ⟨?_, ?_⟩, ?_⟩
  · simp [conjTranspose_smul]
  · simp
  · have hz : point_squared 0 kappa (((-(1 / (2 * kappa)) : ℝ) : ℂ) • (1 : M3)) 0 (point_source 0 0) = 0 := by
      have h1 : point_twisted 0 kappa (((-(1 / (2 * kappa)) : ℝ) : ℂ) • (1 : M3)) 0 (point_source 0 0) = 0 := by
        unfold point_twisted point_source
        have e : (⟨1 / (2 * kappa), 0⟩ : ℂ) = ((1 / (2 * kappa) : ℝ) : ℂ) := by apply Complex.ext <;> simp
        rw [e]
        funext i a
        fin_cases i <;> fin_cases a <;> simp [smul_mulVec, mulVec, dotProduct]
      unfold point_squared
      simp only
      rw [h1]
      have := twisted_smul (-0) kappa (((-(1 / (2 * kappa)) : ℝ) : ℂ) • (1 : M3)) 0 0 0
      simpa using this
    unfold invert_column
    simp only [if_pos, show (1 : Fin 4) ≠ 0 by decide, if_false]
    rw [ploop]
    unfold pstep
    simp only [hz]
    rw [if_pos (Or.inl (by simp [hsc_scal_prod]))]

/-- the hypotheses are met by a clover term different from zero, with a mass -/
example : ∃ Cl : Clov, ClHerm Cl ∧ Cl 1 ≠ 0 ∧ ∃ inv, IsInverse (1 / 2) (1 / 8) Cl inv := by
  let Cl : Clov := fun _ => 1
  have hCl : ClHerm Cl := ⟨by simp [Cl], by simp [Cl]⟩
  exact ⟨Cl, hCl, by simp [Cl], C44_returns _ _ Cl hCl fun hl v => C44_mass_invertible _ _ (by norm_num) Cl hCl hl v⟩

end
end Nissa.InvCl
