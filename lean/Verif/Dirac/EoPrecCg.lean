import Verif.Dirac.PropsEoPrec2
import Verif.Inverters.PropsCg
import Mathlib.Analysis.InnerProductSpace.PiL2
import Mathlib.Analysis.Complex.Basic
import Mathlib.LinearAlgebra.Complex.FiniteDimensional

/-! # C41: the preconditioned inverters with the conjugate gradient

The model of `cg_invert` (`Inverters/Cg.lean`) works on vectors of a real inner product space.  A field on the sites of one parity is such a vector: its
components on the sites of the global lattice, with the real part of the scalar product.  The solver of the odd system is here the model of `cg_invert`
applied to the squared kernel (`/repo/src/inverters/twisted_mass/cg_64_invert_tmD_eoprec.hpp`, `/repo/src/inverters/twisted_clover/cg_64_invert_tmclovD_eoprec.hpp:11-45`). -/

set_option linter.all false

namespace Nissa.EoP
open Nissa.Lx Nissa.Sten Nissa.Su3f Nissa.Gauge Nissa.Gamma Nissa.StD Nissa.Wilson Nissa.Cg Matrix Complex
open scoped RealInnerProductSpace

noncomputable section

/-- the components of a spincolor field on the sites of parity `p` -/
abbrev EV (g : Geo) (p : Nat) := PiLp 2 (fun _ : ↥(boxP g p) × Fin 4 × Fin 3 => ℂ)

/-- the vector of a half field -/
def toE (g : Geo) (p : Nat) (x : HFld) : EV g p := WithLp.toLp 2 (fun i => globH g x i.1.1 i.2.1 i.2.2)

open Classical in
/-- the half field of a vector -/
def fromE (g : Geo) (p : Nat) (v : EV g p) : HFld := fun rk e i a =>
  match (loclxOfLoceo g (coordOfLx rk g.R) p e).bind (glbCoordOfLoclx g (coordOfLx rk g.R)) with
  | some c => if h : c ∈ boxP g p then v (⟨c, h⟩, i, a) else 0
  | none => 0

/-- an operator on half fields, on the vectors -/
def onE (g : Geo) (p : Nat) (sq : HFld → HFld) (v : EV g p) : EV g p := toE g p (sq (fromE g p v))

/-- `cg_invert` on half fields -/
def cgHalf (g : Geo) (p : Nat) (guess : Option HFld) (sq : HFld → HFld) (niter : Nat) (residue : ℝ) (source : HFld) : Except Crash HFld :=
  match cgInvert (guess.map (toE g p)) (onE g p sq) niter residue (toE g p source) with
  | .error c => .error c
  | .ok (s, _) => .ok (fromE g p s)

/-- `inv_tmD_cg_eoprec_native`.  `/repo/src/inverters/twisted_mass/cg_invert_tmD_eoprec.cpp:102-148` -/
def inv_tmD_cg_eoprec (g : Geo) (ji : Nat) (jq : Quad) (jv : SpCol) (guess : Option HFld) (conf : Nat → Nat → Quad) (kappa : ℝ) (anis : Option ℝ) (mass : ℝ) (niter : Nat)
    (residue : ℝ) (source : Nat → Nat → SpCol) : Except Crash ((Nat → Nat → SpCol) × HFld × HFld) :=
  inv_tmD_native g ji jq jv (fun cf phi => cgHalf g 1 guess (tmDkern_square g ji jq jv cf kappa anis mass) niter residue phi) conf kappa anis mass source

/-- `inv_tmclovD_cg_eoprec_native`, after the computation of the clover term and of its inverse.
`/repo/src/inverters/twisted_clover/cg_invert_tmclovD_eoprec.cpp:59-124` -/
def inv_tmclovD_cg_eoprec (g : Geo) (ji : Nat) (jq : Quad) (jv : SpCol) (jc : Clov) (jic : InvClov) (guess : Option HFld) (conf : Nat → Nat → Quad) (kappa : ℝ)
    (anis : Option ℝ) (Cl : Nat → Nat → Clov) (invCl : Nat → Nat → InvClov) (mass : ℝ) (niter : Nat) (residue : ℝ) (source : Nat → Nat → SpCol) :
    Except Crash ((Nat → Nat → SpCol) × HFld × HFld) :=
  inv_tmclovD_native g ji jq jv jc jic (fun cf co ie phi => cgHalf g 1 guess (tmclovDkern_square g ji jq jv cf kappa anis co ie mass) niter residue phi) conf kappa anis Cl invCl mass source

/-! ### vectors and fields -/

theorem fromE_add (g : Geo) (p : Nat) (u v : EV g p) : fromE g p (u + v) = fun rk e => fromE g p u rk e + fromE g p v rk e := by
  funext rk e i a
  unfold fromE
  rw [Pi.add_apply, Pi.add_apply]
  cases (loclxOfLoceo g (coordOfLx rk g.R) p e).bind (glbCoordOfLoclx g (coordOfLx rk g.R)) with
  | none => simp
  | some c =>
    simp only
    by_cases h : c ∈ boxP g p
    · simp [h]
    · simp [h]

theorem fromE_smul (g : Geo) (p : Nat) (s : ℝ) (v : EV g p) : fromE g p (s • v) = fun rk e => (s : ℂ) • fromE g p v rk e := by
  funext rk e i a
  unfold fromE
  rw [Pi.smul_apply, Pi.smul_apply]
  cases (loclxOfLoceo g (coordOfLx rk g.R) p e).bind (glbCoordOfLoclx g (coordOfLx rk g.R)) with
  | none => simp
  | some c =>
    simp only
    by_cases h : c ∈ boxP g p
    · simp [h]
    · simp [h]

theorem toE_inner (g : Geo) (p : Nat) (x y : HFld) : (⟪toE g p x, toE g p y⟫ : ℝ) = (dotS (boxP g p) (globH g x) (globH g y)).re := by
  rw [PiLp.inner_apply, Fintype.sum_prod_type]
  simp only [Fintype.sum_prod_type]
  unfold toE dotS
  rw [Complex.re_sum, ← Finset.sum_coe_sort (boxP g p) (fun c => (∑ i, star (globH g x c i) ⬝ᵥ globH g y c i).re)]
  refine Finset.sum_congr rfl fun c _ => ?_
  rw [Complex.re_sum]
  refine Finset.sum_congr rfl fun i _ => ?_
  unfold dotProduct
  rw [Complex.re_sum]
  refine Finset.sum_congr rfl fun a _ => ?_
  rw [Complex.inner, mul_comm]
  rfl

theorem toE_sub (g : Geo) (p : Nat) (x y : HFld) : toE g p x - toE g p y = toE g p (fun rk e => x rk e - y rk e) := by
  ext i; rfl

theorem toE_norm (g : Geo) (p : Nat) (x : HFld) : ‖toE g p x‖ ^ 2 = (dotS (boxP g p) (globH g x) (globH g x)).re := by
  rw [← real_inner_self_eq_norm_sq, toE_inner]

section
variable {g : Geo} (ok : g.Ok) (eo : EoOk g)
include ok eo

theorem globH_fromE {p : Nat} (v : EV g p) {c : Coords} (hc : c ∈ boxP g p) (i : Fin 4) (a : Fin 3) : globH g (fromE g p v) c i a = v (⟨c, hc⟩, i, a) := by
  obtain ⟨rk, e, l, h1, h2, hr, hl, hx, hF, hG⟩ := eoSiteOf ok eo (mem_boxP.1 hc).1
  rw [hG]
  unfold fromE
  rw [(mem_boxP.1 hc).2] at hl
  rw [hl, Option.bind_some, hx]
  simp [hc]

theorem toE_fromE {p : Nat} (v : EV g p) : toE g p (fromE g p v) = v := by
  ext ⟨c, i, a⟩
  exact globH_fromE ok eo v c.2 i a

omit ok eo in
/-- a linear operator on half fields -/
def linE (p : Nat) (sq : HFld → HFld) (hadd : ∀ x y : HFld, ∀ c ∈ boxP g p, globH g (sq fun rk e => x rk e + y rk e) c = globH g (sq x) c + globH g (sq y) c)
    (hsmul : ∀ (s : ℂ) (x : HFld), ∀ c ∈ boxP g p, globH g (sq fun rk e => s • x rk e) c = s • globH g (sq x) c) : EV g p →ₗ[ℝ] EV g p where
  toFun := onE g p sq
  map_add' u v := by
    ext ⟨c, i, a⟩
    show globH g (sq (fromE g p (u + v))) c i a = _
    rw [fromE_add, hadd _ _ c c.2]; rfl
  map_smul' s v := by
    ext ⟨c, i, a⟩
    show globH g (sq (fromE g p (s • v))) c i a = _
    rw [fromE_smul, hsmul _ _ c c.2]
    show (s : ℂ) * _ = _
    rw [← Complex.real_smul]; rfl

/-- if the solver returns, the residue of the half system is below the requested one -/
theorem cgHalf_converged (p : Nat) (sq : HFld → HFld) (hadd : ∀ x y : HFld, ∀ c ∈ boxP g p, globH g (sq fun rk e => x rk e + y rk e) c = globH g (sq x) c + globH g (sq y) c)
    (hsmul : ∀ (s : ℂ) (x : HFld), ∀ c ∈ boxP g p, globH g (sq fun rk e => s • x rk e) c = s • globH g (sq x) c)
    (guess : Option HFld) (niter : Nat) (hn : 0 < niter) (residue : ℝ) (source t : HFld) (h : cgHalf g p guess sq niter residue source = .ok t) :
    (dotS (boxP g p) (fun c => globH g source c - globH g (sq t) c) (fun c => globH g source c - globH g (sq t) c)).re <
      residue * (dotS (boxP g p) (globH g source) (globH g source)).re := by
  unfold cgHalf at h
  cases hc : cgInvert (guess.map (toE g p)) (onE g p sq) niter residue (toE g p source) with
  | error c => rw [hc] at h; cases h
  | ok v =>
    obtain ⟨s, n⟩ := v
    rw [hc] at h
    cases h
    have := (C28_returns_converged (linE p sq hadd hsmul) _ _ niter hn residue s n hc).1
    have e : toE g p source - linE p sq hadd hsmul s = toE g p (fun rk e => source rk e - sq (fromE g p s) rk e) := toE_sub g p _ _
    rw [e, toE_norm, toE_norm] at this
    exact this

/-- the solver returns within a number of iterations equal to the real dimension, for a hermitian, positive definite operator -/
theorem cgHalf_terminates (p : Nat) (sq : HFld → HFld) (hadd : ∀ x y : HFld, ∀ c ∈ boxP g p, globH g (sq fun rk e => x rk e + y rk e) c = globH g (sq x) c + globH g (sq y) c)
    (hsmul : ∀ (s : ℂ) (x : HFld), ∀ c ∈ boxP g p, globH g (sq fun rk e => s • x rk e) c = s • globH g (sq x) c)
    (hsymm : ∀ x y : HFld, dotS (boxP g p) (globH g (sq x)) (globH g y) = dotS (boxP g p) (globH g x) (globH g (sq y)))
    (hpos : ∀ x : HFld, (∃ c ∈ boxP g p, globH g x c ≠ 0) → 0 < (dotS (boxP g p) (globH g (sq x)) (globH g x)).re)
    (niter : Nat) (hn : 24 * (boxP g p).card < niter) (residue : ℝ) (hr : 0 < residue) (source : HFld) (hs : ∃ c ∈ boxP g p, globH g source c ≠ 0) :
    ∃ t, cgHalf g p none sq niter residue source = .ok t := by
  have hspd : SPD (linE p sq hadd hsmul) := by
    refine ⟨fun x y => ?_, fun x hx => ?_⟩
    · have hx := toE_fromE ok eo x
      have hy := toE_fromE ok eo y
      show ⟪toE g p (sq (fromE g p x)), y⟫ = ⟪x, toE g p (sq (fromE g p y))⟫
      conv_lhs => rw [← hy]
      conv_rhs => rw [← hx]
      rw [toE_inner, toE_inner, hsymm]
    · show 0 < ⟪toE g p (sq (fromE g p x)), x⟫
      conv_rhs => rw [← toE_fromE ok eo x]
      rw [toE_inner, toE_fromE ok eo x]
      refine hpos _ ?_
      by_contra hcon
      push_neg at hcon
      refine hx ?_
      ext ⟨c, i, a⟩
      rw [← globH_fromE ok eo x c.2 i a, hcon c c.2]; rfl
  have hs' : toE g p source ≠ 0 := by
    intro h0
    obtain ⟨c, hc, hne⟩ := hs
    refine hne ?_
    funext i a
    have := congrArg (fun v : EV g p => v (⟨c, hc⟩, i, a)) h0
    exact this
  have hdim : Module.finrank ℝ (EV g p) = 24 * (boxP g p).card := by
    rw [LinearEquiv.finrank_eq (WithLp.linearEquiv 2 ℝ (↥(boxP g p) × Fin 4 × Fin 3 → ℂ)), Module.finrank_pi_fintype]
    simp [Complex.finrank_real_complex]
    ring
  obtain ⟨sol, n, h, -, -⟩ := C28_terminates (linE p sq hadd hsmul) hspd none (toE g p source) hs' (by simpa using hs') niter (by rw [hdim]; exact hn) residue hr
  refine ⟨fromE g p sol, ?_⟩
  unfold cgHalf
  have : cgInvert (Option.map (toE g p) none) (onE g p sq) niter residue (toE g p source) = .ok (sol, n) := h
  rw [this]

/-! ### Linearity and positivity of the squared kernels -/

omit ok eo in
theorem dotS_sub_self (s : Finset Coords) (u v : Coords → SpCol) (h : ∀ c ∈ s, u c = - spinMul (Γ 5) (v c)) : dotS s u u = dotS s v v := by
  rw [dotS_eq, dotS_eq]
  refine Finset.sum_congr rfl fun c hc => ?_
  rw [h c hc]
  have e : ∀ w : SpCol, -w = (-1 : ℂ) • w := by intro w; simp
  rw [e, ip_smul, smul_ip, ip_spin, g5herm, g5_g5]
  simp

omit ok eo in
theorem dotS_parities (y x : Coords → SpCol) : dotS (box g.L) y x = dotS (boxP g 0) y x + dotS (boxP g 1) y x := sum_parities _

omit ok eo in
theorem Kspec_lin (anis : Option ℝ) (U : Coords → Quad) (A B : Coords → SpCol → SpCol) (hA : ∀ c (a : ℂ) u v, A c (u + a • v) = A c u + a • A c v)
    (hB : ∀ c (a : ℂ) u v, B c (u + a • v) = B c u + a • B c v) (a : ℂ) (x y : Coords → SpCol) (c : Coords) :
    Kspec g anis U A B (fun d => x d + a • y d) c = Kspec g anis U A B x c + a • Kspec g anis U A B y c := by
  have e : ∀ d, wilson g anis U (fun d => x d + a • y d) d = wilson g anis U x d + a • wilson g anis U y d := by
    intro d; rw [wilson_add g anis U x (fun d => a • y d), wilson_smul]
  unfold Kspec
  have e2 : (fun d => B d (wilson g anis U (fun d => x d + a • y d) d)) = fun d => B d (wilson g anis U x d) + a • B d (wilson g anis U y d) := by
    funext d; rw [e, hB]
  rw [e2, wilson_add g anis U (fun d => B d (wilson g anis U x d)), wilson_smul, hA]
  simp only [spinMul_sub, spinMul_add, spinMul_smul, smul_add, smul_sub]
  rw [smul_comm a]
  abel

theorem Kspec_odd {anis : Option ℝ} {U : Coords → Quad} {A B : Coords → SpCol → SpCol} {x y : Coords → SpCol} (h : ∀ c ∈ boxP g 1, x c = y c) {c : Coords}
    (hc : c ∈ boxP g 1) : Kspec g anis U A B x c = Kspec g anis U A B y c := by
  have go : ∀ d ∈ boxP g 0, wilson g anis U x d = wilson g anis U y d := fun d hd =>
    wilson_congr fun mu => ⟨h _ (tshift_mem_boxP ok eo hd mu (.inl rfl)), h _ (tshift_mem_boxP ok eo hd mu (.inr rfl))⟩
  exact Kspec_congr (by rw [h c hc]) fun mu =>
    ⟨by rw [go _ (tshift_mem_boxP ok eo hc mu (.inl rfl))], by rw [go _ (tshift_mem_boxP ok eo hc mu (.inr rfl))]⟩

/-- two kernels one after the other are linear -/
theorem square_lin (anis : Option ℝ) (U : Coords → Quad) (A B A' B' : Coords → SpCol → SpCol) (hA : ∀ c (a : ℂ) u v, A c (u + a • v) = A c u + a • A c v)
    (hB : ∀ c (a : ℂ) u v, B c (u + a • v) = B c u + a • B c v) (hA' : ∀ c (a : ℂ) u v, A' c (u + a • v) = A' c u + a • A' c v)
    (hB' : ∀ c (a : ℂ) u v, B' c (u + a • v) = B' c u + a • B' c v) (K K' : HFld → HFld)
    (hK : ∀ x, ∀ c ∈ boxP g 1, globH g (K x) c = Kspec g anis U A B (globH g x) c) (hK' : ∀ x, ∀ c ∈ boxP g 1, globH g (K' x) c = Kspec g anis U A' B' (globH g x) c) :
    (∀ x y : HFld, ∀ c ∈ boxP g 1, globH g (K (K' fun rk e => x rk e + y rk e)) c = globH g (K (K' x)) c + globH g (K (K' y)) c) ∧
    ∀ (s : ℂ) (x : HFld), ∀ c ∈ boxP g 1, globH g (K (K' fun rk e => s • x rk e)) c = s • globH g (K (K' x)) c := by
  have key : ∀ (x y : HFld) (s : ℂ), ∀ c ∈ boxP g 1, globH g (K (K' fun rk e => x rk e + s • y rk e)) c = globH g (K (K' x)) c + s • globH g (K (K' y)) c := by
    intro x y s c hc
    rw [hK _ c hc, hK _ c hc, hK _ c hc, ← Kspec_lin anis U A B hA hB]
    refine Kspec_odd ok eo (fun d hd => ?_) hc
    rw [hK' _ d hd, hK' _ d hd, hK' _ d hd, ← Kspec_lin anis U A' B' hA' hB']
    rfl
  have one : ∀ x y : HFld, (fun rk e => x rk e + y rk e) = fun rk e => x rk e + (1 : ℂ) • y rk e := by intro x y; simp
  refine ⟨fun x y c hc => ?_, fun s x c hc => ?_⟩
  · rw [one, key x y 1 c hc, one_smul]
  · have h0 := key (fun _ _ => 0) (fun _ _ => 0) 1 c hc
    have z : (fun (rk e : Nat) => (0 : SpCol) + (1 : ℂ) • (0 : SpCol)) = fun _ _ => 0 := by simp
    rw [z, one_smul] at h0
    have h1 := key (fun _ _ => 0) x s c hc
    rw [left_eq_add.1 h0, zero_add] at h1
    rw [← h1]
    simp

/-- injectivity of the Schur complement for nonvanishing twisted mass -/
theorem Kspec_inj (anis : Option ℝ) (U : Coords → Quad) (k mu : ℝ) (hmu : mu ≠ 0) (C : Coords → SpCol → SpCol)
    (hC : ∀ c ∈ box g.L, ∀ y x, ip y (spinMul (Γ 5) (C c x)) = ip (spinMul (Γ 5) (C c y)) x) (B : Coords → SpCol → SpCol)
    (hB : ∀ c (a : ℂ) u v, B c (u + a • v) = B c u + a • B c v) (hAB : ∀ c ∈ boxP g 0, ∀ v, diagSpec k mu (C c) (B c v) = v) (x : Coords → SpCol)
    (hx : ∀ c ∈ boxP g 1, Kspec g anis U (fun c => diagSpec k mu (C c)) B x c = 0) : ∀ c ∈ boxP g 1, x c = 0 := by
  classical
  -- the full vector
  set X : Coords → SpCol := fun c => if par c = 0 then B c ((1 / 2 : ℂ) • wilson g anis U x c) else x c with hX
  have hXo : ∀ c ∈ boxP g 1, X c = x c := fun c hc => by simp [hX, (mem_boxP.1 hc).2]
  have hW : ∀ c ∈ boxP g 0, wilson g anis U X c = wilson g anis U x c := fun c hc =>
    wilson_congr fun mu => ⟨hXo _ (tshift_mem_boxP ok eo hc mu (.inl rfl)), hXo _ (tshift_mem_boxP ok eo hc mu (.inr rfl))⟩
  have hXe : ∀ c ∈ boxP g 0, X c = B c (0 + (1 / 2 : ℂ) • wilson g anis U X c) := fun c hc => by
    rw [hW c hc, zero_add]; simp [hX, (mem_boxP.1 hc).2]
  have hB0 : ∀ c, B c 0 = 0 := by
    intro c
    have := hB c 1 0 0
    rw [one_smul, one_smul, add_zero] at this
    exact left_eq_add.1 this
  have key := schur ok eo anis U (fun c => diagSpec k mu (C c)) B (fun c _ => hB c) X (fun _ => 0) (fun _ => 0) hXe (fun c hc => by
    have : wilson g anis U (fun d => B d 0) c = 0 := by
      have e : (fun d => B d 0) = fun d => (0 : ℂ) • (0 : SpCol) := by funext d; rw [hB0, zero_smul]
      rw [e, wilson_smul g anis U 0 (fun _ => 0), zero_smul]
    rw [this, smul_zero, add_zero, spinMul_zero])
  have hD : ∀ c ∈ box g.L, Dspec g anis U (fun c => diagSpec k mu (C c)) X c = 0 := by
    intro c hc
    have h2 : par c = 0 ∨ par c = 1 := by have := par_lt ok eo c; omega
    rcases h2 with hp | hp
    · have := key.1 c (mem_boxP.2 ⟨hc, hp⟩)
      rw [hAB c (mem_boxP.2 ⟨hc, hp⟩), sub_self, sub_zero] at this
      exact this
    · have hc' := mem_boxP.2 ⟨hc, hp⟩
      have := key.2 c hc'
      rw [Kspec_odd ok eo hXo hc', hx c hc', sub_zero, sub_zero, spinMul_zero] at this
      exact this
  have hQ : ∀ c ∈ box g.L, Qspec g anis U k C 0 X c = - (((mu : ℂ) * I) • X c) := by
    intro c hc
    have h1 := congrArg (spinMul (Γ 5)) (hD c hc)
    unfold Dspec diagSpec at h1
    rw [spinMul_zero] at h1
    rw [eq_neg_iff_add_eq_zero, ← h1]
    unfold Qspec
    simp only [spinMul_add, spinMul_sub, spinMul_smul, g5_g5, ofReal_zero, zero_mul, zero_smul, add_zero]
    abel
  have hadj := Qspec_adjoint ok anis U k C 0 hC X X
  rw [neg_zero, dotS_congr (fun _ _ => rfl) hQ, dotS_congr hQ (fun _ _ => rfl)] at hadj
  have e1 : dotS (box g.L) X (fun c => -(((mu : ℂ) * I) • X c)) = -((mu : ℂ) * I) * dotS (box g.L) X X := by
    rw [dotS_eq, dotS_eq, Finset.mul_sum]
    exact Finset.sum_congr rfl fun c _ => by rw [← neg_smul, ip_smul]
  have e2 : dotS (box g.L) (fun c => -(((mu : ℂ) * I) • X c)) X = ((mu : ℂ) * I) * dotS (box g.L) X X := by
    rw [dotS_eq, dotS_eq, Finset.mul_sum]
    exact Finset.sum_congr rfl fun c _ => by rw [← neg_smul, smul_ip]; simp
  rw [e1, e2] at hadj
  have h0 : dotS (box g.L) X X = 0 := by
    have hne : (mu : ℂ) * I ≠ 0 := mul_ne_zero (ofReal_ne_zero.2 hmu) I_ne_zero
    have : ((mu : ℂ) * I) * dotS (box g.L) X X = 0 := by linear_combination (-1 / 2 : ℂ) * hadj
    exact (mul_eq_zero.1 this).resolve_left hne
  intro c hc
  rw [← hXo c hc]
  exact (dotS_self (box g.L) X).2.2 h0 c (mem_boxP.1 hc).1

end

end

end Nissa.EoP
