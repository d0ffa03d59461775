import Verif.Hmc.QuarkGrad

/-! # Rooted staggered pseudofermions: specification of action and force, and their properties on the global lattice -/

set_option linter.all false

namespace Nissa.QForce
open Nissa.Lx Nissa.Sten Nissa.Su3f Nissa.Gauge Nissa.GForce Nissa.LSm Nissa.StD Nissa.Back Nissa.CgF Nissa.Inv Matrix Complex
open scoped RealInnerProductSpace Topology

noncomputable section

open Classical in
/-- Specification: the solution of `(D^+ D + p) chi = phi` (unique, for positive `p`: `solves_unique`) -/
def sol (g : Geo) (V : Coords → Quad) (p : ℝ) (phi : Coords → Col) : Coords → Col := if h : ∃ chi, Solves g V p phi chi then choose h else 0

/-- Specification: the action of a pseudofermion, `phi^+ [ c + sum_i w_i / (D^+ D + p_i) ] phi` -/
def actSpec (g : Geo) (V : Coords → Quad) (r : Rat) (phi : Coords → Col) : ℝ :=
  r.cons * (dot (boxP g 0) phi phi).re + (r.terms.map fun t => t.2 * (dot (boxP g 0) phi (sol g V t.1 phi)).re).sum

/-- Specification: sum of the contributions of the terms to the force -/
def derSpec (g : Geo) (V : Coords → Quad) (r : Rat) (phi : Coords → Col) (x : Coords) (mu : Dir) : M3 :=
  (r.terms.map fun t => t.2 • pfForce g V (sol g V t.1 phi) x mu).sum

/-- a flavour: background field, approximation, pseudofermions on the global lattice -/
structure Quark where
  u : Coords → Quad1
  appr : Rat
  phi : List (Coords → Col)

/-- Specification: action of all the flavours -/
def quarkAction (g : Geo) (qs : List Quark) (U : Coords → Quad) : ℝ :=
  (qs.map fun q => (q.phi.map fun phi => actSpec g (dress q.u U) q.appr phi).sum).sum

/-- Specification: derivative with respect to the link -/
def quarkDer (g : Geo) (qs : List Quark) (U : Coords → Quad) (x : Coords) (mu : Dir) : M3 :=
  (qs.map fun q => (q.phi.map fun phi => (q.u x mu * (eta x mu : ℂ)) • derSpec g (dress q.u U) q.appr phi x mu).sum).sum

/-- Specification: the force -/
def quarkForce (g : Geo) (qs : List Quark) (U : Coords → Quad) (x : Coords) (mu : Dir) : M3 := algPart (U x mu * quarkDer g qs U x mu)

/-- all poles positive -/
def Rat.Ok (r : Rat) : Prop := ∀ t ∈ r.terms, 0 < t.1
def QOk (qs : List Quark) : Prop := ∀ q ∈ qs, q.appr.Ok

/-! ### lists -/

theorem deriv_list {α : Type} (l : List α) {f : α → ℝ → ℝ} {d : α → ℝ} {t : ℝ} (h : ∀ a ∈ l, HasDerivAt (f a) (d a) t) :
    HasDerivAt (fun s => (l.map fun a => f a s).sum) (l.map d).sum t := by
  induction l with
  | nil => exact hasDerivAt_const t _
  | cons a l ih =>
    simp only [List.map_cons, List.sum_cons]
    exact HasDerivAt.add (h a (by simp)) (ih fun b hb => h b (by simp [hb]))

/-- pairing of the variation of the links with a force -/
def pair (g : Geo) (W : Coords → Quad) (F : Coords → Quad) : ℝ := ∑ x ∈ box g.L, ∑ mu, (W x mu * F x mu).trace.re

theorem pair_zero (g : Geo) (W : Coords → Quad) : pair g W (fun _ _ => 0) = 0 := by simp [pair]

theorem pair_add (g : Geo) (W F K : Coords → Quad) : pair g W (fun x mu => F x mu + K x mu) = pair g W F + pair g W K := by
  unfold pair
  rw [← Finset.sum_add_distrib]
  refine Finset.sum_congr rfl fun x _ => ?_
  rw [← Finset.sum_add_distrib]
  refine Finset.sum_congr rfl fun mu _ => ?_
  rw [Matrix.mul_add, Matrix.trace_add, Complex.add_re]

theorem pair_smul (g : Geo) (W F : Coords → Quad) (w : ℝ) : pair g W (fun x mu => w • F x mu) = w * pair g W F := by
  unfold pair
  rw [Finset.mul_sum]
  refine Finset.sum_congr rfl fun x _ => ?_
  rw [Finset.mul_sum]
  refine Finset.sum_congr rfl fun mu _ => ?_
  rw [Matrix.mul_smul, Matrix.trace_smul]
  simp

theorem pair_list {α : Type} (g : Geo) (W : Coords → Quad) (l : List α) (F : α → Coords → Quad) :
    pair g W (fun x mu => (l.map fun a => F a x mu).sum) = (l.map fun a => pair g W (F a)).sum := by
  induction l with
  | nil => exact pair_zero g W
  | cons a l ih =>
    simp only [List.map_cons, List.sum_cons]
    rw [pair_add, ih]

section
variable {g : Geo} (ok : g.Ok) (eo : EoOk g)
include ok eo

theorem sol_solves (V : Coords → Quad) {p : ℝ} (hp : 0 < p) (phi : Coords → Col) : Solves g V p phi (sol g V p phi) := by
  classical
  unfold sol
  rw [dif_pos (solves_exists ok eo V hp phi)]
  exact Classical.choose_spec (solves_exists ok eo V hp phi)

theorem sol_eq {V : Coords → Quad} {p : ℝ} (hp : 0 < p) {phi chi : Coords → Col} (h : Solves g V p phi chi) : ∀ c ∈ boxP g 0, chi c = sol g V p phi c :=
  solves_unique ok eo V hp h (sol_solves ok eo V hp phi)

/-! ### only the links and the sites of the lattice count -/

omit eo in
theorem hop_links {U V : Coords → Quad} (h : ∀ x ∈ box g.L, U x = V x) (x : Coords → Col) {c : Coords} (hc : c ∈ box g.L) : hop g U x c = hop g V x c := by
  unfold hop
  refine Finset.sum_congr rfl fun mu _ => ?_
  rw [h c hc, h _ (tshift_mem_box ok hc mu (-1))]

omit eo in
theorem hop2_links {U V : Coords → Quad} (h : ∀ x ∈ box g.L, U x = V x) (x : Coords → Col) {c : Coords} (hc : c ∈ box g.L) :
    hop g U (hop g U x) c = hop g V (hop g V x) c := by
  rw [hop_links ok h _ hc]
  exact hop_congr fun mu => ⟨hop_links ok h _ (tshift_mem_box ok hc mu 1), hop_links ok h _ (tshift_mem_box ok hc mu (-1))⟩

theorem solves_links {U V : Coords → Quad} (h : ∀ x ∈ box g.L, U x = V x) {p : ℝ} {phi psi chi : Coords → Col} (hf : ∀ c ∈ boxP g 0, phi c = psi c)
    (hs : Solves g U p phi chi) : Solves g V p psi chi := by
  intro c hc
  rw [← hf c hc, ← hs c hc]
  unfold kern
  rw [hop2_links ok h _ (mem_boxP.1 hc).1]

theorem sol_links {U V : Coords → Quad} (h : ∀ x ∈ box g.L, U x = V x) {p : ℝ} (hp : 0 < p) {phi psi : Coords → Col} (hf : ∀ c ∈ boxP g 0, phi c = psi c) :
    ∀ c ∈ boxP g 0, sol g U p phi c = sol g V p psi c := sol_eq ok eo hp (solves_links ok eo h hf (sol_solves ok eo U hp phi))

omit ok eo in
theorem dress_links {u v : Coords → Quad1} {U V : Coords → Quad} (hu : ∀ x ∈ box g.L, u x = v x) (h : ∀ x ∈ box g.L, U x = V x) :
    ∀ x ∈ box g.L, dress u U x = dress v V x := by
  intro x hx; unfold dress; rw [h x hx, hu x hx]

theorem pfForce_congr {U V : Coords → Quad} (h : ∀ x ∈ box g.L, U x = V x) {chi psi : Coords → Col} (hc : ∀ c ∈ boxP g 0, chi c = psi c) {x : Coords} (hx : x ∈ box g.L) (mu : Dir) :
    pfForce g U chi x mu = pfForce g V psi x mu := by
  have ho : ∀ c ∈ boxP g 1, odd g U chi c = odd g V psi c := by
    intro c hc1
    unfold odd
    rw [hop_links ok h _ (mem_boxP.1 hc1).1]
    congr 1
    exact hop_congr fun nu => ⟨hc _ (tshift_mem_boxP ok eo hc1 nu (.inl rfl)), hc _ (tshift_mem_boxP ok eo hc1 nu (.inr rfl))⟩
  unfold pfForce
  by_cases hp : par x = 0
  · rw [if_pos hp, if_pos hp]
    have hx0 := mem_boxP.2 ⟨hx, hp⟩
    rw [hc x hx0, ho _ (tshift_mem_boxP ok eo hx0 mu (.inl rfl))]
  · rw [if_neg hp, if_neg hp]
    have hx1 : x ∈ boxP g 1 := mem_boxP.2 ⟨hx, by unfold par at *; omega⟩
    rw [ho x hx1, hc _ (tshift_mem_boxP ok eo hx1 mu (.inl rfl))]

/-! ### The gradient -/

theorem act_deriv {V : ℝ → Coords → Quad} {W : Coords → Quad} {t : ℝ} (hV : ∀ x ∈ box g.L, ∀ mu, DerivM (fun s => V s x mu) (W x mu) t)
    {r : Rat} (hr : r.Ok) (phi : Coords → Col) : HasDerivAt (fun s => actSpec g (V s) r phi) (pair g W (derSpec g (V t) r phi)) t := by
  have h1 : HasDerivAt (fun s => (r.terms.map fun q => q.2 * (dot (boxP g 0) phi (sol g (V s) q.1 phi)).re).sum)
      (r.terms.map fun q => q.2 * pair g W (pfForce g (V t) (sol g (V t) q.1 phi))).sum t := by
    refine deriv_list r.terms fun q hq => HasDerivAt.const_mul q.2 ?_
    exact pf_deriv ok eo hV (hr q hq) phi (fun s => sol g (V s) q.1 phi) (fun s => sol_solves ok eo (V s) (hr q hq) phi)
  refine HasDerivAt.congr_deriv (HasDerivAt.add (hasDerivAt_const t (r.cons * (dot (boxP g 0) phi phi).re)) h1) ?_
  rw [zero_add]
  have : derSpec g (V t) r phi = fun x mu => (r.terms.map fun q => (fun x mu => q.2 • pfForce g (V t) (sol g (V t) q.1 phi) x mu : Coords → Quad) x mu).sum := rfl
  rw [this, pair_list]
  simp only [pair_smul]

/-- derivative of the action along any smooth path of configurations -/
theorem quark_deriv {qs : List Quark} (hq : QOk qs) {U : ℝ → Coords → Quad} {W : Coords → Quad} {t : ℝ}
    (hU : ∀ x ∈ box g.L, ∀ mu, DerivM (fun s => U s x mu) (W x mu) t) :
    HasDerivAt (fun s => quarkAction g qs (U s)) (pair g W (quarkDer g qs (U t))) t := by
  unfold quarkAction
  refine HasDerivAt.congr_deriv (deriv_list qs (d := fun q => (q.phi.map fun phi => pair g W (fun x mu => (q.u x mu * (eta x mu : ℂ)) • derSpec g (dress q.u (U t)) q.appr phi x mu)).sum)
    fun q hqq => deriv_list q.phi fun phi _ => ?_) ?_
  · have hV : ∀ x ∈ box g.L, ∀ mu, DerivM (fun s => dress q.u (U s) x mu) (dress q.u W x mu) t := by
      intro x hx mu i j
      exact HasDerivAt.const_mul (q.u x mu * (eta x mu : ℂ)) (hU x hx mu i j)
    refine HasDerivAt.congr_deriv (act_deriv ok eo hV (hq q hqq) phi) ?_
    unfold pair
    refine Finset.sum_congr rfl fun x _ => Finset.sum_congr rfl fun mu _ => ?_
    unfold dress
    rw [Matrix.smul_mul, Matrix.mul_smul]
  · have e1 : quarkDer g qs (U t) = fun x mu => (qs.map fun q => (fun x mu => (q.phi.map fun phi =>
        (fun x mu => (q.u x mu * (eta x mu : ℂ)) • derSpec g (dress q.u (U t)) q.appr phi x mu : Coords → Quad) x mu).sum : Coords → Quad) x mu).sum := rfl
    rw [e1, pair_list]
    refine congrArg List.sum (List.map_congr_left fun q _ => ?_)
    rw [pair_list]

/-- C52: the force is the gradient of the action of the pseudofermions: if the links change as `dU/dt=iHU` with hermitian traceless `H`,
the derivative of the action is the sum, on the links, of the real trace of `iH` times the force. -/
theorem C52_force_is_gradient {qs : List Quark} (hq : QOk qs) {U : ℝ → Coords → Quad} {H : Coords → Quad} {t : ℝ}
    (hH : ∀ x ∈ box g.L, ∀ mu, (H x mu)ᴴ = H x mu ∧ (H x mu).trace = 0)
    (h : ∀ x ∈ box g.L, ∀ mu, DerivM (fun s => U s x mu) ((I • H x mu) * U t x mu) t) :
    HasDerivAt (fun s => quarkAction g qs (U s)) (∑ x ∈ box g.L, ∑ mu, ((I • H x mu) * quarkForce g qs (U t) x mu).trace.re) t := by
  refine HasDerivAt.congr_deriv (quark_deriv ok eo hq (W := fun x mu => (I • H x mu) * U t x mu) h) ?_
  unfold pair
  refine Finset.sum_congr rfl fun x hx => Finset.sum_congr rfl fun mu _ => ?_
  unfold quarkForce
  rw [reTr_alg _ _ (hH x hx mu).1 (hH x hx mu).2, Matrix.mul_assoc]

/-- C52: the equations of motion integrated by the program (gauge and quark force on the momenta) conserve the sum of kinetic energy, gauge
action and pseudofermion action. -/
theorem C52_energy_conserved (beta C1 : ℝ) {qs : List Quark} (hq : QOk qs) {U H : ℝ → Coords → Quad} {t : ℝ}
    (hH : ∀ x ∈ box g.L, ∀ mu, (H t x mu)ᴴ = H t x mu ∧ (H t x mu).trace = 0)
    (hU : ∀ x ∈ box g.L, ∀ mu, DerivM (fun s => U s x mu) ((I • H t x mu) * U t x mu) t)
    (hF : ∀ x ∈ box g.L, ∀ mu, DerivM (fun s => H s x mu) (-(I • (forceSpec beta C1 g (U t) x mu + quarkForce g qs (U t) x mu))) t) :
    HasDerivAt (fun s => kinSpec g (H s) + actionSpec beta C1 g (U s) + quarkAction g qs (U s)) 0 t := by
  refine HasDerivAt.congr_deriv (HasDerivAt.add (HasDerivAt.add (kin_deriv hF) (C50_force_is_gradient ok beta C1 hH hU)) (C52_force_is_gradient ok eo hq hH hU)) ?_
  rw [← Finset.sum_add_distrib, ← Finset.sum_add_distrib]
  refine Finset.sum_eq_zero fun x hx => ?_
  rw [← Finset.sum_add_distrib, ← Finset.sum_add_distrib]
  refine Finset.sum_eq_zero fun mu _ => ?_
  rw [(hH x hx mu).1, smul_add, neg_add, Matrix.add_mul, Matrix.neg_mul, Matrix.neg_mul, Matrix.smul_mul, Matrix.smul_mul, Matrix.smul_mul, Matrix.smul_mul,
    Matrix.trace_add, Matrix.trace_neg, Matrix.trace_neg, Matrix.trace_smul, Matrix.trace_smul, Matrix.trace_smul, Matrix.trace_smul,
    Matrix.trace_mul_comm (H t x mu) (forceSpec beta C1 g (U t) x mu), Matrix.trace_mul_comm (H t x mu) (quarkForce g qs (U t) x mu)]
  simp

/-! ### Algebra, locality, gauge covariance -/

omit ok eo in
theorem quarkForce_alg (qs : List Quark) (U : Coords → Quad) (x : Coords) (mu : Dir) :
    (quarkForce g qs U x mu)ᴴ = -quarkForce g qs U x mu ∧ (quarkForce g qs U x mu).trace = 0 := algPart_anti _

theorem quarkForce_links {qs : List Quark} (hq : QOk qs) {U V : Coords → Quad} (h : ∀ x ∈ box g.L, U x = V x) {x : Coords} (hx : x ∈ box g.L) :
    quarkForce g qs U x = quarkForce g qs V x := by
  funext mu
  unfold quarkForce quarkDer derSpec
  rw [h x hx]
  refine congrArg (fun M => algPart (V x mu * M)) (congrArg List.sum (List.map_congr_left fun q hqq => congrArg List.sum (List.map_congr_left fun phi _ =>
    congrArg (fun M => (q.u x mu * (eta x mu : ℂ)) • M) (congrArg List.sum (List.map_congr_left fun t ht => congrArg (fun M => t.2 • M) ?_)))))
  have hd := dress_links (u := q.u) (v := q.u) (fun _ _ => rfl) h
  exact pfForce_congr ok eo hd (sol_links ok eo hd (hq q hqq t ht) fun _ _ => rfl) hx mu

omit ok eo in
theorem dress_transformed (u : Coords → Quad1) (G : Coords → M3) (U : Coords → Quad) : dress u (transformed g G U) = transformed g G (dress u U) := by
  funext x mu
  unfold dress transformed
  rw [Matrix.mul_smul, Matrix.smul_mul]

theorem kern_transformed (G : Coords → M3) (hG : AllUnitary g G) (V : Coords → Quad) (p : ℝ) (chi : Coords → Col) {c : Coords} (hc : c ∈ box g.L) :
    kern g (transformed g G V) p (fun c => G c *ᵥ chi c) c = G c *ᵥ kern g V p chi c := by
  unfold kern
  have : hop g (transformed g G V) (hop g (transformed g G V) fun c => G c *ᵥ chi c) c = hop g (transformed g G V) (fun c => G c *ᵥ hop g V chi c) c :=
    hop_congr fun mu => ⟨C39_hop_covariant ok G hG V chi (tshift_mem_box ok hc mu 1), C39_hop_covariant ok G hG V chi (tshift_mem_box ok hc mu (-1))⟩
  rw [this, C39_hop_covariant ok G hG V _ hc, mulVec_sub, mulVec_smul, mulVec_smul]

theorem sol_transformed (G : Coords → M3) (hG : AllUnitary g G) (V : Coords → Quad) {p : ℝ} (hp : 0 < p) (phi : Coords → Col) :
    ∀ c ∈ boxP g 0, sol g (transformed g G V) p (fun c => G c *ᵥ phi c) c = G c *ᵥ sol g V p phi c := by
  intro c hc
  refine (sol_eq ok eo hp (chi := fun c => G c *ᵥ sol g V p phi c) ?_ c hc).symm
  intro d hd
  rw [kern_transformed ok eo G hG V p _ (mem_boxP.1 hd).1, sol_solves ok eo V hp phi d hd]

omit ok eo in
theorem outer_mul (A B : M3) (a b : Col) : outer (A *ᵥ a) (B *ᵥ b) = A * outer a b * Bᴴ := by
  ext i j
  simp only [outer, mulVec, dotProduct, Matrix.mul_apply, Matrix.conjTranspose_apply, star_sum, star_mul', Finset.sum_mul, Finset.mul_sum]
  refine Finset.sum_congr rfl fun k _ => Finset.sum_congr rfl fun l _ => by ring

theorem pfForce_transformed (G : Coords → M3) (hG : AllUnitary g G) (V : Coords → Quad) (chi psi : Coords → Col) (hs : ∀ c ∈ boxP g 0, psi c = G c *ᵥ chi c)
    {x : Coords} (hx : x ∈ box g.L) (mu : Dir) :
    pfForce g (transformed g G V) psi x mu = G (tshift g x mu 1) * pfForce g V chi x mu * (G x)ᴴ := by
  rw [pfForce_congr ok eo (V := transformed g G V) (fun _ _ => rfl) (psi := fun c => G c *ᵥ chi c) hs hx]
  have ho : ∀ c ∈ box g.L, odd g (transformed g G V) (fun c => G c *ᵥ chi c) c = G c *ᵥ odd g V chi c := by
    intro c hc
    unfold odd
    rw [C39_hop_covariant ok G hG V chi hc, mulVec_smul]
  have hx1 := tshift_mem_box ok hx mu 1
  unfold pfForce
  by_cases hp : par x = 0
  · rw [if_pos hp, if_pos hp, ho _ hx1, outer_mul]
  · rw [if_neg hp, if_neg hp, ho _ hx, outer_mul, Matrix.mul_neg, Matrix.neg_mul]

/-- the flavours with the pseudofermions transformed -/
def Quark.rotate (G : Coords → M3) (q : Quark) : Quark := ⟨q.u, q.appr, q.phi.map fun phi c => G c *ᵥ phi c⟩

omit ok eo in
theorem list_conj {α : Type} (A B : M3) (l : List α) (f : α → M3) : (l.map fun a => A * f a * B).sum = A * (l.map f).sum * B := by
  induction l with
  | nil => simp
  | cons a l ih => simp only [List.map_cons, List.sum_cons, ih, Matrix.mul_add, Matrix.add_mul]

/-- C52: the force is covariant: transforming links and pseudofermions the force is conjugated by the transformation of the site. -/
theorem C52_force_covariant (G : Coords → M3) (hG : AllUnitary g G) {qs : List Quark} (hq : QOk qs) (U : Coords → Quad) {x : Coords} (hx : x ∈ box g.L) (mu : Dir) :
    quarkForce g (qs.map (Quark.rotate G)) (transformed g G U) x mu = G x * quarkForce g qs U x mu * (G x)ᴴ := by
  have h1 : quarkDer g (qs.map (Quark.rotate G)) (transformed g G U) x mu = G (tshift g x mu 1) * quarkDer g qs U x mu * (G x)ᴴ := by
    unfold quarkDer
    rw [List.map_map, ← list_conj]
    congr 1
    refine List.map_congr_left fun q hqq => ?_
    simp only [Function.comp, Quark.rotate]
    rw [List.map_map, ← list_conj]
    congr 1
    refine List.map_congr_left fun phi _ => ?_
    simp only [Function.comp]
    rw [Matrix.mul_smul, Matrix.smul_mul]
    congr 1
    unfold derSpec
    rw [← list_conj]
    congr 1
    refine List.map_congr_left fun t ht => ?_
    rw [Matrix.mul_smul, Matrix.smul_mul, dress_transformed, pfForce_transformed ok eo G hG _ _ _ (sol_transformed ok eo G hG _ (hq q hqq t ht) phi) hx]
  unfold quarkForce
  rw [h1, ← algPart_conj _ _ (hG x hx)]
  congr 1
  have hu := hG _ (tshift_mem_box ok hx mu 1)
  unfold transformed
  calc G x * U x mu * (G (tshift g x mu 1))ᴴ * (G (tshift g x mu 1) * quarkDer g qs U x mu * (G x)ᴴ)
      = G x * U x mu * ((G (tshift g x mu 1))ᴴ * G (tshift g x mu 1)) * (quarkDer g qs U x mu * (G x)ᴴ) := by simp only [Matrix.mul_assoc]
    _ = _ := by rw [hu, Matrix.mul_one]; simp only [Matrix.mul_assoc]

omit ok eo in
theorem dot_transformed (G : Coords → M3) (hG : AllUnitary g G) (s : Finset Coords) (hs : ∀ c ∈ s, c ∈ box g.L) (y x : Coords → Col) :
    dot s (fun c => G c *ᵥ y c) (fun c => G c *ᵥ x c) = dot s y x := by
  unfold dot
  refine Finset.sum_congr rfl fun c hc => ?_
  rw [star_mulVec, ← dotProduct_mulVec, mulVec_mulVec, hG c (hs c hc), one_mulVec]

/-- C52: the action is gauge invariant. -/
theorem C52_action_invariant (G : Coords → M3) (hG : AllUnitary g G) {qs : List Quark} (hq : QOk qs) (U : Coords → Quad) :
    quarkAction g (qs.map (Quark.rotate G)) (transformed g G U) = quarkAction g qs U := by
  unfold quarkAction
  rw [List.map_map]
  refine congrArg List.sum (List.map_congr_left fun q hqq => ?_)
  simp only [Function.comp, Quark.rotate]
  rw [List.map_map]
  refine congrArg List.sum (List.map_congr_left fun phi _ => ?_)
  have hb : ∀ c ∈ boxP g 0, c ∈ box g.L := fun c hc => (mem_boxP.1 hc).1
  simp only [Function.comp, actSpec]
  rw [dot_transformed G hG _ hb]
  refine congrArg (fun s => q.appr.cons * (dot (boxP g 0) phi phi).re + s) (congrArg List.sum (List.map_congr_left fun t ht => ?_))
  rw [dress_transformed, dot_congr (fun _ _ => rfl) (sol_transformed ok eo G hG _ (hq q hqq t ht) phi), dot_transformed G hG _ hb]

end

end

end Nissa.QForce
