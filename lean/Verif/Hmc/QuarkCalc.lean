import Verif.Hmc.PathCalc
import Verif.Hmc.QuarkForce
import Verif.Hmc.PropsBackfield2
import Mathlib.Analysis.Calculus.Deriv.Slope
import Mathlib.Analysis.InnerProductSpace.Calculus
import Mathlib.Analysis.Calculus.Deriv.Star

/-! # Derivative of the action of the pseudofermions -/

set_option linter.all false

namespace Nissa.QForce
open Nissa.Lx Nissa.Sten Nissa.Su3f Nissa.Gauge Nissa.GForce Nissa.StD Nissa.Back Nissa.CgF Nissa.Inv Matrix Complex
open scoped RealInnerProductSpace Topology

noncomputable section

/-! ### The solution of a linear system depending on a parameter -/

theorem resolvent_deriv {E : Type} [NormedAddCommGroup E] [InnerProductSpace ℝ E] (A : ℝ → E →ₗ[ℝ] E) {p : ℝ} (hp : 0 < p)
    (hs : ∀ t x y, ⟪A t x, y⟫ = ⟪x, A t y⟫) (hc : ∀ t x, p * ‖x‖ ^ 2 ≤ ⟪x, A t x⟫) (chi : ℝ → E) (phi : E) (hx : ∀ t, A t (chi t) = phi)
    {t0 : ℝ} {d : E} (hd : HasDerivAt (fun t => A t (chi t0)) d t0) : HasDerivAt (fun t => ⟪phi, chi t⟫) (-⟪chi t0, d⟫) t0 := by
  have hb : ∀ t, ‖chi t - chi t0‖ ≤ ‖A t (chi t0) - A t0 (chi t0)‖ / p := by
    intro t
    rw [le_div_iff₀ hp]
    have h1 := hc t (chi t - chi t0)
    have h2 : A t (chi t - chi t0) = -(A t (chi t0) - A t0 (chi t0)) := by rw [map_sub, hx, hx]; abel
    rw [h2] at h1
    have h3 : ⟪chi t - chi t0, -(A t (chi t0) - A t0 (chi t0))⟫ ≤ ‖chi t - chi t0‖ * ‖A t (chi t0) - A t0 (chi t0)‖ := by
      have := real_inner_le_norm (chi t - chi t0) (-(A t (chi t0) - A t0 (chi t0)))
      rwa [norm_neg] at this
    by_cases h0 : ‖chi t - chi t0‖ = 0
    · rw [h0, zero_mul]; exact norm_nonneg _
    · have h4 : 0 < ‖chi t - chi t0‖ := lt_of_le_of_ne (norm_nonneg _) (Ne.symm h0)
      refine le_of_mul_le_mul_left ?_ h4
      calc ‖chi t - chi t0‖ * (‖chi t - chi t0‖ * p) = p * ‖chi t - chi t0‖ ^ 2 := by ring
        _ ≤ _ := h1.trans h3
  have hcont : Filter.Tendsto chi (𝓝 t0) (𝓝 (chi t0)) := by
    rw [tendsto_iff_norm_sub_tendsto_zero]
    have h1 : Filter.Tendsto (fun t => ‖A t (chi t0) - A t0 (chi t0)‖ / p) (𝓝 t0) (𝓝 0) := by
      have h2 : Filter.Tendsto (fun t => A t (chi t0)) (𝓝 t0) (𝓝 (A t0 (chi t0))) := hd.continuousAt
      have h3 := (tendsto_iff_norm_sub_tendsto_zero.1 h2).div_const p
      simpa using h3
    exact squeeze_zero (fun t => norm_nonneg _) hb h1
  rw [hasDerivAt_iff_tendsto_slope]
  have hd' := hasDerivAt_iff_tendsto_slope.1 hd
  have h1 : Filter.Tendsto (fun t => -⟪chi t, slope (fun t => A t (chi t0)) t0 t⟫) (𝓝[≠] t0) (𝓝 (-⟪chi t0, d⟫)) :=
    (Filter.Tendsto.inner (hcont.mono_left nhdsWithin_le_nhds) hd').neg
  refine h1.congr fun t => ?_
  rw [slope_def_field, slope_def_module, inner_smul_right]
  have e1 : ⟪phi, chi t⟫ = ⟪chi t, A t0 (chi t0)⟫ := by rw [hx, real_inner_comm]
  have e2 : ⟪phi, chi t0⟫ = ⟪chi t, A t (chi t0)⟫ := by rw [← hs, hx]
  rw [e1, e2, inner_sub_right]
  field_simp
  ring

/-! ### Specification -/

/-- links multiplied by background field and staggered phases -/
def dress (u : Coords → Quad1) (U : Coords → Quad) : Coords → Quad := fun x mu => (u x mu * (eta x mu : ℂ)) • U x mu

/-- `(D^+ D + p) chi` on the even sites, `D` being half of the hopping from even to odd sites -/
def kern (g : Geo) (V : Coords → Quad) (p : ℝ) (chi : Coords → Col) (c : Coords) : Col := p • chi c - (1 / 4 : ℝ) • hop g V (hop g V chi) c

/-- `chi` solves `(D^+ D + p) chi = phi` -/
def Solves (g : Geo) (V : Coords → Quad) (p : ℝ) (phi chi : Coords → Col) : Prop := ∀ c ∈ boxP g 0, kern g V p chi c = phi c

/-- `D chi` -/
def odd (g : Geo) (V : Coords → Quad) (chi : Coords → Col) (c : Coords) : Col := (1 / 2 : ℝ) • hop g V chi c

/-- the product of a vector and of the conjugate of another one -/
def outer (a b : Col) : M3 := fun i j => a i * star (b j)

/-- contribution to the force of a solution: `D chi (x+mu) chi(x)^+` on even sites, `-chi(x+mu) (D chi)(x)^+` on odd ones -/
def pfForce (g : Geo) (V : Coords → Quad) (chi : Coords → Col) (x : Coords) (mu : Dir) : M3 :=
  if par x = 0 then outer (odd g V chi (tshift g x mu 1)) (chi x) else -outer (chi (tshift g x mu 1)) (odd g V chi x)

/-! ### Derivatives -/

theorem hop_deriv {g : Geo} {V : ℝ → Coords → Quad} {W : Coords → Quad} {x : ℝ → Coords → Col} {y : Coords → Col} {t : ℝ} {c : Coords}
    (hV : ∀ mu, DerivM (fun s => V s c mu) (W c mu) t) (hV' : ∀ mu, DerivM (fun s => V s (tshift g c mu (-1)) mu) (W (tshift g c mu (-1)) mu) t)
    (hx : ∀ mu a, HasDerivAt (fun s => x s (tshift g c mu 1) a) (y (tshift g c mu 1) a) t)
    (hx' : ∀ mu a, HasDerivAt (fun s => x s (tshift g c mu (-1)) a) (y (tshift g c mu (-1)) a) t) (a : Fin 3) :
    HasDerivAt (fun s => hop g (V s) (x s) c a) (hop g W (x t) c a + hop g (V t) y c a) t := by
  have e : ∀ (V : Coords → Quad) (x : Coords → Col), hop g V x c a = ∑ mu : Dir, (∑ b, V c mu a b * x (tshift g c mu 1) b -
      ∑ b, star (V (tshift g c mu (-1)) mu b a) * x (tshift g c mu (-1)) b) := by
    intro V x
    unfold hop
    rw [Finset.sum_apply]
    rfl
  simp only [e]
  rw [← Finset.sum_add_distrib]
  refine HasDerivAt.fun_sum fun mu _ => ?_
  have h1 : HasDerivAt (fun s => ∑ b, V s c mu a b * x s (tshift g c mu 1) b)
      (∑ b, (W c mu a b * x t (tshift g c mu 1) b + V t c mu a b * y (tshift g c mu 1) b)) t :=
    HasDerivAt.fun_sum fun b _ => HasDerivAt.mul (hV mu a b) (hx mu b)
  have h2 : HasDerivAt (fun s => ∑ b, star (V s (tshift g c mu (-1)) mu b a) * x s (tshift g c mu (-1)) b)
      (∑ b, (star (W (tshift g c mu (-1)) mu b a) * x t (tshift g c mu (-1)) b + star (V t (tshift g c mu (-1)) mu b a) * y (tshift g c mu (-1)) b)) t :=
    HasDerivAt.fun_sum fun b _ => HasDerivAt.mul (HasDerivAt.star (hV' mu b a)) (hx' mu b)
  refine HasDerivAt.congr_deriv (HasDerivAt.sub h1 h2) ?_
  rw [Finset.sum_add_distrib, Finset.sum_add_distrib]
  ring

/-! ### Color fields of the global lattice as vectors -/

open Classical in
/-- a color field on the even sites of the global lattice -/
def evenView (g : Geo) : View (Coords → Col) (↥(boxP g 0) × Fin 3) where
  comp := { toFun := fun x i => x i.1.1 i.2, map_add' := fun _ _ => rfl, map_smul' := fun _ _ => rfl }
  ofVec := { toFun := fun v c a => if h : c ∈ boxP g 0 then v (⟨c, h⟩, a) else 0
             map_add' := fun v w => by funext c a; by_cases h : c ∈ boxP g 0 <;> simp [h]
             map_smul' := fun s v => by funext c a; by_cases h : c ∈ boxP g 0 <;> simp [h] }
  right := fun v => by funext ⟨⟨c, hc⟩, a⟩; simp [hc]

theorem even_dot (g : Geo) (y x : Coords → Col) : (evenView g).dot y x = dot (boxP g 0) y x := by
  unfold View.dot StD.dot
  rw [Fintype.sum_prod_type, ← Finset.sum_coe_sort (boxP g 0)]
  rfl

section
variable {g : Geo} (ok : g.Ok) (eo : EoOk g)
include ok eo

theorem kern_congr (V : Coords → Quad) (p : ℝ) {x y : Coords → Col} (h : ∀ c ∈ boxP g 0, x c = y c) {c : Coords} (hc : c ∈ boxP g 0) : kern g V p x c = kern g V p y c := by
  unfold kern
  rw [h c hc]
  congr 2
  refine hop_congr fun mu => ⟨?_, ?_⟩
  · refine hop_congr fun nu => ⟨?_, ?_⟩
    · exact h _ (tshift_mem_boxP ok eo (tshift_mem_boxP ok eo hc mu (.inl rfl)) nu (.inl rfl))
    · exact h _ (tshift_mem_boxP ok eo (tshift_mem_boxP ok eo hc mu (.inl rfl)) nu (.inr rfl))
  · refine hop_congr fun nu => ⟨?_, ?_⟩
    · exact h _ (tshift_mem_boxP ok eo (tshift_mem_boxP ok eo hc mu (.inr rfl)) nu (.inl rfl))
    · exact h _ (tshift_mem_boxP ok eo (tshift_mem_boxP ok eo hc mu (.inr rfl)) nu (.inr rfl))

omit ok eo in
theorem kern_lin (V : Coords → Quad) (p : ℝ) : Lin (evenView g) (kern g V p) := by
  refine ⟨fun x y => ?_, fun s x => ?_⟩
  · funext ⟨⟨c, hc⟩, a⟩
    show kern g V p (x + y) c a = kern g V p x c a + kern g V p y c a
    unfold kern
    have e1 : (x + y) = fun d => x d + y d := rfl
    have e2 : hop g V (fun d => x d + y d) = fun d => hop g V x d + hop g V y d := funext fun d => hop_add g _ _ _ d
    rw [e1, e2, hop_add]
    simp only [Pi.add_apply, Pi.sub_apply, Pi.smul_apply, smul_add]
    abel
  · funext ⟨⟨c, hc⟩, a⟩
    show kern g V p (s • x) c a = s * kern g V p x c a
    unfold kern
    have e1 : (s • x) = fun d => s • x d := rfl
    have e2 : hop g V (fun d => s • x d) = fun d => s • hop g V x d := funext fun d => hop_smul g _ _ _ d
    rw [e1, e2, hop_smul]
    simp only [Pi.sub_apply, Pi.smul_apply, smul_eq_mul, Complex.real_smul]
    ring

/-- the quadratic form -/
theorem kern_form (V : Coords → Quad) (p : ℝ) (y x : Coords → Col) :
    dot (boxP g 0) y (kern g V p x) = p * dot (boxP g 0) y x + dot (boxP g 1) (odd g V y) (odd g V x) := by
  have e1 : kern g V p x = p • x + (-(1 / 4 : ℝ)) • hop g V (hop g V x) := by
    funext c
    unfold kern
    show p • x c - (1 / 4 : ℝ) • hop g V (hop g V x) c = p • x c + (-(1 / 4 : ℝ)) • hop g V (hop g V x) c
    rw [neg_smul, sub_eq_add_neg]
  have e2 : ∀ z, odd g V z = (1 / 2 : ℝ) • hop g V z := fun z => rfl
  rw [e1, dot_add, dot_smul, dot_smul, hop_antihermitian_parity ok eo V (by omega : 0 < 2), e2, e2, dot_smul, smul_dot]
  push_cast
  ring

omit ok eo in
theorem dot_conj (s : Finset Coords) (y x : Coords → Col) : (starRingEnd ℂ) (dot s y x) = dot s x y := by
  unfold dot
  rw [map_sum]
  refine Finset.sum_congr rfl fun c _ => ?_
  simp only [dotProduct, map_sum, map_mul, Pi.star_apply]
  refine Finset.sum_congr rfl fun a _ => ?_
  simp [mul_comm]

theorem kern_symm (V : Coords → Quad) (p : ℝ) (y x : Coords → Col) : dot (boxP g 0) (kern g V p y) x = dot (boxP g 0) y (kern g V p x) := by
  rw [← dot_conj (boxP g 0) x (kern g V p y), kern_form ok eo, kern_form ok eo, map_add, map_mul, dot_conj, dot_conj]
  simp

/-- the operator on the vectors of the components -/
def kernE (g : Geo) (V : Coords → Quad) (p : ℝ) : EV (↥(boxP g 0) × Fin 3) →ₗ[ℝ] EV (↥(boxP g 0) × Fin 3) := lin (evenView g) (kern g V p) (kern_lin V p)

theorem kernE_toE (V : Coords → Quad) (p : ℝ) (x : Coords → Col) : kernE g V p ((evenView g).toE x) = (evenView g).toE (kern g V p x) := by
  show (evenView g).toE (kern g V p ((evenView g).fromE ((evenView g).toE x))) = _
  unfold View.toE
  congr 1
  funext ⟨⟨c, hc⟩, a⟩
  show kern g V p ((evenView g).fromE ((evenView g).toE x)) c a = kern g V p x c a
  rw [kern_congr ok eo V p (y := x) ?_ hc]
  intro d hd
  funext b
  show (if h : d ∈ boxP g 0 then _ else 0) = _
  rw [dif_pos hd]
  rfl

theorem kernE_symm (V : Coords → Quad) (p : ℝ) (x y : EV (↥(boxP g 0) × Fin 3)) : ⟪kernE g V p x, y⟫ = ⟪x, kernE g V p y⟫ := by
  rw [← toE_fromE (evenView g) x, ← toE_fromE (evenView g) y, kernE_toE ok eo, kernE_toE ok eo, toE_inner, toE_inner, even_dot, even_dot, kern_symm ok eo]

theorem kernE_coer (V : Coords → Quad) (p : ℝ) (x : EV (↥(boxP g 0) × Fin 3)) : p * ‖x‖ ^ 2 ≤ ⟪x, kernE g V p x⟫ := by
  rw [← toE_fromE (evenView g) x, kernE_toE ok eo, toE_inner, toE_norm, even_dot, even_dot, kern_form ok eo]
  have := (dot_self_nonneg ok eo (boxP g 1) (odd g V ((evenView g).fromE x))).1
  simp only [Complex.add_re, Complex.re_ofReal_mul]
  linarith

theorem toE_eq {x y : Coords → Col} : (evenView g).toE x = (evenView g).toE y ↔ ∀ c ∈ boxP g 0, x c = y c := by
  constructor
  · intro h c hc
    funext a
    exact congrFun (congrArg WithLp.ofLp h) (⟨c, hc⟩, a)
  · intro h
    unfold View.toE
    congr 1
    funext ⟨⟨c, hc⟩, a⟩
    exact congrFun (h c hc) a

theorem solves_toE {V : Coords → Quad} {p : ℝ} {phi chi : Coords → Col} : Solves g V p phi chi ↔ kernE g V p ((evenView g).toE chi) = (evenView g).toE phi := by
  rw [kernE_toE ok eo, toE_eq ok eo]
  rfl

theorem kernE_inj (V : Coords → Quad) {p : ℝ} (hp : 0 < p) : Function.Injective (kernE g V p) := by
  rw [injective_iff_map_eq_zero]
  intro x hx
  have := kernE_coer ok eo V p x
  rw [hx, inner_zero_right] at this
  by_contra h
  have h1 : 0 < ‖x‖ := norm_pos_iff.2 h
  have h2 : 0 < p * ‖x‖ ^ 2 := by positivity
  linarith

/-- a solution exists -/
theorem solves_exists (V : Coords → Quad) {p : ℝ} (hp : 0 < p) (phi : Coords → Col) : ∃ chi, Solves g V p phi chi := by
  obtain ⟨v, hv⟩ := (LinearMap.injective_iff_surjective.1 (kernE_inj ok eo V hp)) ((evenView g).toE phi)
  refine ⟨(evenView g).fromE v, (solves_toE ok eo).2 ?_⟩
  rw [toE_fromE, hv]

/-- and is unique -/
theorem solves_unique (V : Coords → Quad) {p : ℝ} (hp : 0 < p) {phi chi chi' : Coords → Col} (h : Solves g V p phi chi) (h' : Solves g V p phi chi') :
    ∀ c ∈ boxP g 0, chi c = chi' c :=
  (toE_eq ok eo).1 (kernE_inj ok eo V hp (((solves_toE ok eo).1 h).trans ((solves_toE ok eo).1 h').symm))

end

end

end Nissa.QForce
