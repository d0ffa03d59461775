import Verif.Dirac.PropsEoPrec2
import Verif.Inverters.PropsCg
import Mathlib.Analysis.InnerProductSpace.PiL2
import Mathlib.Analysis.Complex.Basic
import Mathlib.LinearAlgebra.Complex.FiniteDimensional

/-! # Conjugate gradient on distributed fields

The model of `cg_invert` (`Inverters/Cg.lean`) works on vectors of a real inner product space.  Here a distributed field is seen as such a vector: its
components on a set of sites of the global lattice, with the real part of the scalar product. -/

set_option linter.all false

namespace Nissa.CgF
open Nissa.Lx Nissa.Sten Nissa.Su3f Nissa.Gauge Nissa.Gamma Nissa.StD Nissa.Wilson Nissa.Cg Matrix Complex
open scoped RealInnerProductSpace

noncomputable section

/-- the vector of the components of index `ι` -/
abbrev EV (ι : Type) [Fintype ι] := PiLp 2 (fun _ : ι => ℂ)

/-- how fields of type `F` are seen as vectors: `comp` reads a component, `ofVec` gives a field of given components -/
structure View (F ι : Type) [AddCommGroup F] [Module ℂ F] where
  comp : F →ₗ[ℂ] (ι → ℂ)
  ofVec : (ι → ℂ) →ₗ[ℂ] F
  right : ∀ v, comp (ofVec v) = v

variable {F ι : Type} [AddCommGroup F] [Module ℂ F] [Fintype ι]

/-- scalar product of the components -/
def View.dot (V : View F ι) (y x : F) : ℂ := ∑ i, star (V.comp y i) * V.comp x i

def View.toE (V : View F ι) (x : F) : EV ι := WithLp.toLp 2 (V.comp x)
def View.fromE (V : View F ι) (v : EV ι) : F := V.ofVec (WithLp.ofLp v)

/-- `cg_invert` on fields.  `/repo/src/inverters/templates/cg_invert_template_threaded.hpp:17-150` -/
def cgField (V : View F ι) (guess : Option F) (f : F → F) (niter : Nat) (residue : ℝ) (source : F) : Except Crash F :=
  match cgInvert (guess.map V.toE) (fun v => V.toE (f (V.fromE v))) niter residue (V.toE source) with
  | .error c => .error c
  | .ok (s, _) => .ok (V.fromE s)

theorem toE_inner (V : View F ι) (x y : F) : (⟪V.toE x, V.toE y⟫ : ℝ) = (V.dot x y).re := by
  rw [PiLp.inner_apply, View.dot, Complex.re_sum]
  refine Finset.sum_congr rfl fun a _ => ?_
  rw [Complex.inner, mul_comm]
  unfold View.toE
  simp [mul_comm]

theorem toE_norm (V : View F ι) (x : F) : ‖V.toE x‖ ^ 2 = (V.dot x x).re := by
  rw [← real_inner_self_eq_norm_sq, toE_inner]

theorem toE_fromE (V : View F ι) (v : EV ι) : V.toE (V.fromE v) = v := by
  unfold View.toE View.fromE
  rw [V.right]

theorem dot_self_pos (V : View F ι) (x : F) (h : V.comp x ≠ 0) : 0 < (V.dot x x).re := by
  rw [← toE_norm]
  have : V.toE x ≠ 0 := fun h0 => h (by have := congrArg WithLp.ofLp h0; simpa [View.toE] using this)
  positivity

/-- a linear operator, on the components -/
structure Lin (V : View F ι) (f : F → F) : Prop where
  add : ∀ x y, V.comp (f (x + y)) = V.comp (f x) + V.comp (f y)
  smul : ∀ (s : ℂ) x, V.comp (f (s • x)) = s • V.comp (f x)

def lin (V : View F ι) (f : F → F) (h : Lin V f) : EV ι →ₗ[ℝ] EV ι where
  toFun v := V.toE (f (V.fromE v))
  map_add' u v := by
    ext i
    have : V.fromE (u + v) = V.fromE u + V.fromE v := V.ofVec.map_add _ _
    show V.comp (f (V.fromE (u + v))) i = _
    rw [this, h.add]; rfl
  map_smul' s v := by
    ext i
    have : V.fromE (s • v) = (s : ℂ) • V.fromE v := by
      unfold View.fromE; rw [← V.ofVec.map_smul]; rfl
    show V.comp (f (V.fromE (s • v))) i = _
    rw [this, h.smul]
    show (s : ℂ) * _ = _
    rw [← Complex.real_smul]; rfl

/-- if the solver returns, the true residue is below the requested one -/
theorem cgField_converged (V : View F ι) (f : F → F) (h : Lin V f) (guess : Option F) (niter : Nat) (hn : 0 < niter) (residue : ℝ) (source t : F)
    (hc : cgField V guess f niter residue source = .ok t) :
    (V.dot (source - f t) (source - f t)).re < residue * (V.dot source source).re := by
  unfold cgField at hc
  cases hi : cgInvert (guess.map V.toE) (fun v => V.toE (f (V.fromE v))) niter residue (V.toE source) with
  | error c => rw [hi] at hc; cases hc
  | ok v =>
    obtain ⟨s, n⟩ := v
    rw [hi] at hc
    cases hc
    have := (C28_returns_converged (lin V f h) _ _ niter hn residue s n hi).1
    have e : V.toE source - lin V f h s = V.toE (source - f (V.fromE s)) := by
      ext i
      show V.comp source i - V.comp (f (V.fromE s)) i = V.comp (source - f (V.fromE s)) i
      rw [map_sub]; rfl
    rw [e, toE_norm, toE_norm] at this
    exact this

/-- the solver returns for a hermitian positive definite operator, allowing more iterations than twice the number of components -/
theorem cgField_terminates (V : View F ι) (f : F → F) (h : Lin V f) (hsymm : ∀ x y, V.dot (f x) y = V.dot x (f y))
    (hpos : ∀ x, V.comp x ≠ 0 → 0 < (V.dot (f x) x).re) (niter : Nat) (hn : 2 * Fintype.card ι < niter) (residue : ℝ) (hr : 0 < residue)
    (source : F) (hs : V.comp source ≠ 0) : ∃ t, cgField V none f niter residue source = .ok t := by
  have hspd : SPD (lin V f h) := by
    refine ⟨fun x y => ?_, fun x hx => ?_⟩
    · have hx := toE_fromE V x
      have hy := toE_fromE V y
      show ⟪V.toE (f (V.fromE x)), y⟫ = ⟪x, V.toE (f (V.fromE y))⟫
      conv_lhs => rw [← hy]
      conv_rhs => rw [← hx]
      rw [toE_inner, toE_inner, hsymm]
    · show 0 < ⟪V.toE (f (V.fromE x)), x⟫
      conv_rhs => rw [← toE_fromE V x]
      rw [toE_inner, toE_fromE V x]
      refine hpos _ fun h0 => hx ?_
      rw [← toE_fromE V x]
      unfold View.toE
      rw [h0]; rfl
  have hs' : V.toE source ≠ 0 := fun h0 => hs (by have := congrArg WithLp.ofLp h0; simpa [View.toE] using this)
  have hdim : Module.finrank ℝ (EV ι) = 2 * Fintype.card ι := by
    rw [LinearEquiv.finrank_eq (WithLp.linearEquiv 2 ℝ (ι → ℂ)), Module.finrank_pi_fintype]
    simp [Complex.finrank_real_complex, mul_comm]
  obtain ⟨sol, n, h, -, -⟩ := C28_terminates (lin V f h) hspd none (V.toE source) hs' (by simpa using hs') niter (by rw [hdim]; exact hn) residue hr
  refine ⟨V.fromE sol, ?_⟩
  unfold cgField
  have : cgInvert (Option.map V.toE none) (fun v => V.toE (f (V.fromE v))) niter residue (V.toE source) = .ok (sol, n) := h
  rw [this]

/-! ### The views -/

open Classical in
/-- the color field of given components on the sites of parity `p` -/
def colOf (g : Geo) (p : Nat) (v : ↥(boxP g p) × Fin 3 → ℂ) : Nat → Nat → Col := fun rk e a =>
  match (loclxOfLoceo g (coordOfLx rk g.R) p e).bind (glbCoordOfLoclx g (coordOfLx rk g.R)) with
  | some c => if h : c ∈ boxP g p then v (⟨c, h⟩, a) else 0
  | none => 0

open Classical in
/-- the spincolor field of given components -/
def lxOf (g : Geo) (v : ↥(box g.L) × Fin 4 × Fin 3 → ℂ) : Nat → Nat → SpCol := fun rk e i a =>
  match glbCoordOfLoclx g (coordOfLx rk g.R) e with
  | some c => if h : c ∈ box g.L then v (⟨c, h⟩, i, a) else 0
  | none => 0

/-- a color field on the sites of parity `p` -/
def colView {g : Geo} (ok : g.Ok) (eo : EoOk g) (p : Nat) : View (Nat → Nat → Col) (↥(boxP g p) × Fin 3) where
  comp := { toFun := fun x i => globH g x i.1.1 i.2, map_add' := fun _ _ => rfl, map_smul' := fun _ _ => rfl }
  ofVec := { toFun := colOf g p
             map_add' := fun u v => by
              funext rk e a
              unfold colOf
              simp only [Pi.add_apply]
              cases (loclxOfLoceo g (coordOfLx rk g.R) p e).bind (glbCoordOfLoclx g (coordOfLx rk g.R)) with
              | none => simp
              | some c => simp only; by_cases h : c ∈ boxP g p <;> simp [h]
             map_smul' := fun s v => by
              funext rk e a
              unfold colOf
              simp only [Pi.smul_apply, RingHom.id_apply]
              cases (loclxOfLoceo g (coordOfLx rk g.R) p e).bind (glbCoordOfLoclx g (coordOfLx rk g.R)) with
              | none => simp
              | some c => simp only; by_cases h : c ∈ boxP g p <;> simp [h] }
  right := fun v => by
    funext ⟨⟨c, hc⟩, a⟩
    obtain ⟨rk, e, l, h1, h2, hr, hl, hx, hF, hG⟩ := eoSiteOf ok eo (mem_boxP.1 hc).1
    show globH g (colOf g p v) c a = _
    rw [hG]
    rw [(mem_boxP.1 hc).2] at hl
    show colOf g p v rk e a = _
    unfold colOf
    rw [hl, Option.bind_some, hx]
    simp [hc]

/-- a spincolor field on all the sites -/
def lxView {g : Geo} (ok : g.Ok) : View (Nat → Nat → SpCol) (↥(box g.L) × Fin 4 × Fin 3) where
  comp := { toFun := fun x i => glob g x i.1.1 i.2.1 i.2.2, map_add' := fun _ _ => rfl, map_smul' := fun _ _ => rfl }
  ofVec := { toFun := lxOf g
             map_add' := fun u v => by
              funext rk e i a
              unfold lxOf
              simp only [Pi.add_apply]
              cases glbCoordOfLoclx g (coordOfLx rk g.R) e with
              | none => simp
              | some c => simp only; by_cases h : c ∈ box g.L <;> simp [h]
             map_smul' := fun s v => by
              funext rk e i a
              unfold lxOf
              simp only [Pi.smul_apply, RingHom.id_apply]
              cases glbCoordOfLoclx g (coordOfLx rk g.R) e with
              | none => simp
              | some c => simp only; by_cases h : c ∈ box g.L <;> simp [h] }
  right := fun v => by
    funext ⟨⟨c, hc⟩, i, a⟩
    obtain ⟨rk, X, h1, h2, hr, hx, hG⟩ := lxSite ok hc
    show glob g (lxOf g v) c i a = _
    rw [hG]
    show lxOf g v rk X i a = _
    unfold lxOf
    rw [hx]
    simp [hc]

theorem col_dot {g : Geo} (ok : g.Ok) (eo : EoOk g) (p : Nat) (y x : Nat → Nat → Col) : (colView ok eo p).dot y x = StD.dot (boxP g p) (globH g y) (globH g x) := by
  unfold View.dot StD.dot
  rw [Fintype.sum_prod_type, ← Finset.sum_coe_sort (boxP g p)]
  rfl

theorem lx_dot {g : Geo} (ok : g.Ok) (y x : Nat → Nat → SpCol) : (lxView ok).dot y x = dotS (box g.L) (glob g y) (glob g x) := by
  unfold View.dot dotS
  rw [Fintype.sum_prod_type, ← Finset.sum_coe_sort (box g.L)]
  simp only [Fintype.sum_prod_type]
  rfl

theorem col_comp {g : Geo} (ok : g.Ok) (eo : EoOk g) (p : Nat) (x y : Nat → Nat → Col) :
    (colView ok eo p).comp x = (colView ok eo p).comp y ↔ ∀ c ∈ boxP g p, globH g x c = globH g y c := by
  constructor
  · intro h c hc; funext a; exact congrFun h (⟨c, hc⟩, a)
  · intro h; funext ⟨⟨c, hc⟩, a⟩; exact congrFun (h c hc) a

theorem lx_comp {g : Geo} (ok : g.Ok) (x y : Nat → Nat → SpCol) :
    (lxView ok).comp x = (lxView ok).comp y ↔ ∀ c ∈ box g.L, glob g x c = glob g y c := by
  constructor
  · intro h c hc; funext i a; exact congrFun h (⟨c, hc⟩, i, a)
  · intro h; funext ⟨⟨c, hc⟩, i, a⟩; exact congrFun (congrFun (h c hc) i) a

end

end Nissa.CgF
