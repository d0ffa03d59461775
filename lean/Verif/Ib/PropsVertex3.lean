import Verif.Ib.PropsVertex2

/-! # C67: sums of the insertions, covariant derivative and Laplace operators, configuration kept -/

set_option linter.all false

namespace Nissa.Vertex
open Nissa.Lx Nissa.Sten Nissa.Su3f Nissa.Gauge Nissa.Gamma Nissa.StD Nissa.Wilson Nissa.Contr Nissa.EoP Matrix Complex
open Nissa.Clv (As2t)

noncomputable section

/-! ### Specification -/

/-- forward part of the conserved current of a link -/
def jF (g : Geo) (U : Coords → Quad) (G : Matrix (Fin 4) (Fin 4) ℂ) (mu : Dir) (psi phi : Coords → SpCol) (c : Coords) : ℂ :=
  ip (psi c) (spinMul (G - γdir mu) (colMul (U c mu) (phi (tshift g c mu 1))))

/-- backward part -/
def jB (g : Geo) (U : Coords → Quad) (G : Matrix (Fin 4) (Fin 4) ℂ) (mu : Dir) (psi phi : Coords → SpCol) (c : Coords) : ℂ :=
  ip (psi (tshift g c mu 1)) (spinMul (G + γdir mu) (colMul (U c mu)ᴴ (phi c)))

theorem jcons_eq (g : Geo) (U : Coords → Quad) (G : Matrix (Fin 4) (Fin 4) ℂ) (mu : Dir) (psi phi : Coords → SpCol) (c : Coords) :
    jcons g U G mu psi phi c = -(I / 2) * jF g U G mu psi phi c + I / 2 * jB g U G mu psi phi c := rfl

/-- the site is at the time asked -/
def At (t : Int) (c : Coords) : Prop := t = -1 ∨ ((c 0 : Nat) : Int) = t

instance (t : Int) (c : Coords) : Decidable (At t c) := by unfold At; infer_instance

/-- covariant derivative (twice the symmetric one) -/
def nabla (g : Geo) (U : Coords → Quad) (mu : Dir) (x : Coords → SpCol) (c : Coords) : SpCol :=
  colMul (U c mu) (x (tshift g c mu 1)) - colMul (U (tshift g c mu (-1)) mu)ᴴ (x (tshift g c mu (-1)))

/-- Laplace operator -/
def lap (g : Geo) (U : Coords → Quad) (ds : Dir → Bool) (x : Coords → SpCol) (c : Coords) : SpCol :=
  ∑ mu : Dir, if ds mu then colMul (U c mu) (x (tshift g c mu 1)) + colMul (U (tshift g c mu (-1)) mu)ᴴ (x (tshift g c mu (-1))) - (2 : ℂ) • x c else 0

/-- forward difference -/
def fdiff (g : Geo) (U : Coords → Quad) (mu : Dir) (x : Coords → SpCol) (c : Coords) : SpCol := colMul (U c mu) (x (tshift g c mu 1)) - x c

theorem atTime_eq (t : Int) (F : Coords → SpCol) (c : Coords) : atTime t F c = if At t c then F c else 0 := by unfold atTime At; rfl

theorem ip_zero (y : SpCol) : ip y 0 = 0 := by simp [ip]
theorem ip_neg' (y v : SpCol) : ip y (-v) = -ip y v := by simp [ip]

section
variable {g : Geo} (ok : g.Ok)
include ok

theorem tdn_up {c : Coords} (hc : c ∈ box g.L) (mu : Dir) : tshift g (tshift g c mu 1) mu (-1) = c := Nissa.Paths.tshift_back ok hc mu 1 (Or.inl rfl)
theorem tup_dn {c : Coords} (hc : c ∈ box g.L) (mu : Dir) : tshift g (tshift g c mu (-1)) mu 1 = c := by
  have := Nissa.Paths.tshift_back ok hc mu (-1) (Or.inr rfl)
  simpa using this

theorem sum_vertex (t : Int) (U : Coords → Quad) (G : Matrix (Fin 4) (Fin 4) ℂ) (a b : Coords → Dir → ℂ) (psi phi : Coords → SpCol) :
    ∑ c ∈ box g.L, ip (psi c) (atTime t (vertex g U G a b phi) c) =
      ∑ c ∈ box g.L, ∑ mu : Dir, ((if At t c then a c mu * jF g U G mu psi phi c else 0) + if At t (tshift g c mu 1) then b c mu * jB g U G mu psi phi c else 0) := by
  have h1 : ∀ c ∈ box g.L, ip (psi c) (atTime t (vertex g U G a b phi) c) = ∑ mu : Dir, (if At t c then a c mu * jF g U G mu psi phi c else 0) +
      ∑ mu : Dir, (if At t c then b (tshift g c mu (-1)) mu * ip (psi c) (bwHop g U G mu phi c) else 0) := by
    intro c hc
    rw [atTime_eq]
    by_cases h : At t c
    · simp only [if_pos h]
      unfold vertex
      rw [ip_sum, ← Finset.sum_add_distrib]
      exact Finset.sum_congr rfl fun mu _ => by rw [ip_add, ip_smul, ip_smul]; rfl
    · simp only [if_neg h]; simp [ip_zero]
  rw [Finset.sum_congr rfl h1, Finset.sum_add_distrib]
  simp only [Finset.sum_add_distrib]
  congr 1
  rw [Finset.sum_comm, Finset.sum_comm (s := box g.L)]
  refine Finset.sum_congr rfl fun mu _ => ?_
  have := sum_shift ok mu (d := -1) (Or.inr rfl) (fun c d => if At t c then b d mu * ip (psi c) (spinMul (G + γdir mu) (colMul (U d mu)ᴴ (phi d))) else 0)
  simp only [neg_neg] at this
  exact this

/-- **C67**.  Photon inserted on a field and contracted with another, summed on the lattice: the sum over the links of the photon field times the conserved current, the one of the hadronic part of the
program (C63). -/
theorem C67_sum_photon (ji : Nat) (jq : Quad) (jv : SpCol) (jc : Coords) (j1 : S1) (twisted : Bool) (r : Fin 2) (conf : Nat → Nat → Quad) (A : Nat → Nat → S1) (inp : Fld) (ds : Dir → Bool)
    (psi : Coords → SpCol) :
    ∑ c ∈ box g.L, ip (psi c) (glob g (insert_external_source g ji jq jv jc j1 twisted r conf A inp ds (-1)) c) =
      ∑ c ∈ box g.L, ∑ mu : Dir, if ds mu then glob g A c mu * jcons g (glob g conf) (wilsonMat twisted r) mu psi (glob g inp) c else 0 := by
  rw [Finset.sum_congr rfl fun c hc => by rw [C67_photon ok ji jq jv jc j1 twisted r conf A inp ds (-1) hc], sum_vertex ok]
  refine Finset.sum_congr rfl fun c _ => Finset.sum_congr rfl fun mu _ => ?_
  rw [if_pos (show At (-1) c from Or.inl rfl), if_pos (show At (-1) (tshift g c mu 1) from Or.inl rfl), jcons_eq]
  cases ds mu
  · simp
  · simp only [if_true]; ring

/-- **C67**.  The conserved current inserted at all times: `-i` times the sum of the conserved current. -/
theorem C67_sum_conserved (ji : Nat) (jq : Quad) (jv : SpCol) (jc : Coords) (twisted : Bool) (r : Fin 2) (conf : Nat → Nat → Quad) (inp : Fld) (ds : Dir → Bool) (psi : Coords → SpCol) :
    ∑ c ∈ box g.L, ip (psi c) (glob g (insert_conserved_current g ji jq jv jc twisted r conf inp ds (-1)) c) =
      -I * ∑ c ∈ box g.L, ∑ mu : Dir, if ds mu then jcons g (glob g conf) (wilsonMat twisted r) mu psi (glob g inp) c else 0 := by
  rw [Finset.sum_congr rfl fun c hc => by rw [C67_conserved ok ji jq jv jc twisted r conf inp ds (-1) hc], sum_vertex ok, Finset.mul_sum]
  refine Finset.sum_congr rfl fun c _ => ?_
  rw [Finset.mul_sum]
  refine Finset.sum_congr rfl fun mu _ => ?_
  rw [if_pos (show At (-1) c from Or.inl rfl), if_pos (show At (-1) (tshift g c mu 1) from Or.inl rfl), jcons_eq]
  cases ds mu
  · simp
  · simp only [if_true]
    have := I_mul_I
    linear_combination (jF g (glob g conf) (wilsonMat twisted r) mu psi (glob g inp) c / 2 - jB g (glob g conf) (wilsonMat twisted r) mu psi (glob g inp) c / 2) * -this

/-- **C67**.  At one time: the spatial components are the conserved current of that time. -/
theorem C67_sum_spatial (ji : Nat) (jq : Quad) (jv : SpCol) (jc : Coords) (twisted : Bool) (r : Fin 2) (conf : Nat → Nat → Quad) (inp : Fld) (ds : Dir → Bool) (h0 : ds 0 = false) (t : Int)
    (psi : Coords → SpCol) :
    ∑ c ∈ box g.L, ip (psi c) (glob g (insert_conserved_current g ji jq jv jc twisted r conf inp ds t) c) =
      -I * ∑ c ∈ box g.L with At t c, ∑ mu : Dir, if ds mu then jcons g (glob g conf) (wilsonMat twisted r) mu psi (glob g inp) c else 0 := by
  rw [Finset.sum_congr rfl fun c hc => by rw [C67_conserved ok ji jq jv jc twisted r conf inp ds t hc], sum_vertex ok, Finset.mul_sum, Finset.sum_filter]
  refine Finset.sum_congr rfl fun c _ => ?_
  have hs : ∀ mu, ds mu = true → (At t (tshift g c mu 1) ↔ At t c) := by
    intro mu hmu
    have : (0 : Dir) ≠ mu := fun h => by rw [← h, h0] at hmu; exact absurd hmu (by decide)
    unfold At tshift
    rw [Function.update_of_ne this]
  by_cases h : At t c
  · rw [if_pos h, Finset.mul_sum]
    refine Finset.sum_congr rfl fun mu _ => ?_
    rw [if_pos h, jcons_eq]
    cases hd : ds mu
    · simp
    · rw [if_pos ((hs mu hd).mpr h)]
      simp only [if_true]
      have := I_mul_I
      linear_combination (jF g (glob g conf) (wilsonMat twisted r) mu psi (glob g inp) c / 2 - jB g (glob g conf) (wilsonMat twisted r) mu psi (glob g inp) c / 2) * -this
  · rw [if_neg h]
    refine Finset.sum_eq_zero fun mu _ => ?_
    rw [if_neg h]
    cases hd : ds mu
    · simp
    · rw [if_neg (fun hh => h ((hs mu hd).mp hh)), add_zero]

/-- **C67**.  At one time: the temporal component takes the forward part of the links that start at that time and the backward part of those that end there, that start at the time before: it is not
the charge of one time. -/
theorem C67_sum_temporal (ji : Nat) (jq : Quad) (jv : SpCol) (jc : Coords) (twisted : Bool) (r : Fin 2) (conf : Nat → Nat → Quad) (inp : Fld) (t : Int) (psi : Coords → SpCol) :
    ∑ c ∈ box g.L, ip (psi c) (glob g (insert_conserved_current g ji jq jv jc twisted r conf inp (fun mu => decide (mu = 0)) t) c) =
      -(∑ c ∈ box g.L with At t c, jF g (glob g conf) (wilsonMat twisted r) 0 psi (glob g inp) c) / 2 +
        (∑ c ∈ box g.L with At t (tshift g c 0 1), jB g (glob g conf) (wilsonMat twisted r) 0 psi (glob g inp) c) / 2 := by
  rw [Finset.sum_congr rfl fun c hc => by rw [C67_conserved ok ji jq jv jc twisted r conf inp _ t hc], sum_vertex ok, Finset.sum_filter, Finset.sum_filter, ← Finset.sum_neg_distrib,
    Finset.sum_div, Finset.sum_div, ← Finset.sum_add_distrib]
  refine Finset.sum_congr rfl fun c _ => ?_
  rw [Finset.sum_eq_single 0]
  · simp only [decide_true, if_true]
    congr 1 <;> split <;> ring
  · intro mu _ h
    simp [h]
  · simp

/-- **C67**.  The insertion on the local current: `i A_mu gamma_mu` on the directions asked and the time asked. -/
theorem C67_local (jc : Coords) (A : Nat → Nat → S1) (inp : Fld) (ds : Dir → Bool) (t : Int) {c : Coords} (hc : c ∈ box g.L) :
    glob g (insert_external_loc_source g jc A inp t ds) c = atTime t (fun c => ∑ mu : Dir, if ds mu then (I * glob g A c mu) • spinMul (γdir mu) (glob g inp c) else 0) c := by
  obtain ⟨rk, X, h1, h2, hr, hx, hG⟩ := lxSite ok hc
  rw [atTime_eq]
  simp only [hG]
  unfold insert_external_loc_source
  simp only [onTime_eq ok jc hx, diracSpinColor_eq, γdir_dense]
  have hs : ∀ (o : SpCol) (z : SpCol), (fun id k => summProdIdouble (o id k) (z id k) 1) = o + I • z := by
    intro o z
    funext i k
    unfold summProdIdouble
    apply Complex.ext <;> simp [sub_eq_add_neg]
  simp only [hs]
  by_cases h : At t c
  · rw [if_pos h]
    have hd : decide (t = -1 ∨ ((c 0 : Nat) : Int) = t) = true := decide_eq_true h
    simp only [hd, if_true]
    have : ∀ (o : SpCol) (mu : Dir), (if ds mu = true then o + I • A rk X mu • spinMul (γdir mu) (inp rk X) else o) =
        o + if ds mu then (I * A rk X mu) • spinMul (γdir mu) (inp rk X) else 0 := by
      intro o mu
      cases ds mu <;> simp [smul_smul]
    simp only [this]
    rw [foldl_add', zero_add, sum_finRange]
  · rw [if_neg h]
    have hd : decide (t = -1 ∨ ((c 0 : Nat) : Int) = t) = false := decide_eq_false h
    simp only [hd]
    simp

/-! ### Derivative and Laplace operators -/

/-- **C67**.  The covariant derivative, on any grid of ranks. -/
theorem C67_nabla (ji : Nat) (jq : Quad) (jv : SpCol) (jc : Coords) (conf : Nat → Nat → Quad) (mu : Dir) (t : Int) (inp : Fld) {c : Coords} (hc : c ∈ box g.L) :
    glob g (apply_nabla_i g ji jq jv jc conf mu t inp) c = atTime t (nabla g (glob g conf) mu (glob g inp)) c := by
  obtain ⟨rk, X, h1, h2, hr, hx, hG⟩ := lxSite ok hc
  rw [atTime_eq, hG]
  unfold apply_nabla_i
  simp only [onTime_eq ok jc hx, decide_eq_true_eq]
  by_cases h : At t c
  · rw [if_pos h, if_pos (show t = -1 ∨ ((c 0 : Nat) : Int) = t from h)]
    simp only [mem_here ok jq conf hr h2 hx, mem_up ok jv ji _ hr h2 hx, mem_dw ok jv ji _ hr h2 hx, mem_dw ok jq ji _ hr h2 hx]
    rfl
  · rw [if_neg h, if_neg (show ¬(t = -1 ∨ ((c 0 : Nat) : Int) = t) from h)]

theorem bw_eq (ji : Nat) (jq : Quad) (jv : SpCol) (conf : Nat → Nat → Quad) (mu : Dir) (inp out : Fld) (reset : Bool) {c : Coords} (hc : c ∈ box g.L) :
    glob g (cshift_bw g ji jq jv conf mu inp out reset) c = (if reset then 0 else glob g out c) + colMul (glob g conf c mu) (glob g inp (tshift g c mu 1)) := by
  obtain ⟨rk, X, h1, h2, hr, hx, hG⟩ := lxSite ok hc
  rw [hG, hG]
  unfold cshift_bw
  simp only [mem_here ok jq conf hr h2 hx, mem_up ok jv ji _ hr h2 hx]
  rfl

theorem fw_eq (ji : Nat) (jq : Quad) (jv : SpCol) (conf : Nat → Nat → Quad) (mu : Dir) (inp out : Fld) (reset : Bool) {c : Coords} (hc : c ∈ box g.L) :
    glob g (cshift_fw g ji jq jv conf mu inp out reset) c = (if reset then 0 else glob g out c) + colMul (glob g conf (tshift g c mu (-1)) mu)ᴴ (glob g inp (tshift g c mu (-1))) := by
  obtain ⟨rk, X, h1, h2, hr, hx, hG⟩ := lxSite ok hc
  rw [hG, hG]
  unfold cshift_fw
  simp only [mem_dw ok jq ji conf hr h2 hx, mem_dw ok jv ji _ hr h2 hx]
  rfl

omit ok in
theorem fold_pair (ds : Dir → Bool) (step : Fld → Dir → Fld) (D : Dir → Coords → SpCol) (c : Coords) (hstep : ∀ o mu, glob g (step o mu) c = glob g o c + D mu c) (l : List Dir) (o : Fld) (n : Nat) :
    let s := l.foldl (fun (s : Fld × Nat) mu => if ds mu then (step s.1 mu, s.2 + 1) else s) (o, n)
    glob g s.1 c = glob g o c + (l.map fun mu => if ds mu then D mu c else 0).sum ∧ s.2 = n + (l.map fun mu => if ds mu then 1 else 0).sum := by
  induction l generalizing o n with
  | nil => simp
  | cons mu l ih =>
    simp only [List.foldl_cons, List.map_cons, List.sum_cons]
    cases h : ds mu
    · simp only [Bool.false_eq_true, if_false]
      obtain ⟨h1, h2⟩ := ih o n
      exact ⟨by rw [h1, zero_add], by rw [h2, zero_add]⟩
    · simp only [if_true]
      obtain ⟨h1, h2⟩ := ih (step o mu) (n + 1)
      refine ⟨by rw [h1, hstep, add_assoc], by rw [h2]; ring⟩

/-- **C67**.  The Laplace operator on the directions asked, on any grid of ranks. -/
theorem C67_laplace (ji : Nat) (jq : Quad) (jv : SpCol) (conf : Nat → Nat → Quad) (ds : Dir → Bool) (inp : Fld) {c : Coords} (hc : c ∈ box g.L) :
    glob g (Laplace_operator g ji jq jv conf ds inp) c = lap g (glob g conf) ds (glob g inp) c := by
  obtain ⟨h1, h2⟩ := fold_pair (g := g) ds (fun o mu => cshift_fw g ji jq jv conf mu inp (cshift_bw g ji jq jv conf mu inp o false) false)
    (fun mu c => colMul (glob g conf c mu) (glob g inp (tshift g c mu 1)) + colMul (glob g conf (tshift g c mu (-1)) mu)ᴴ (glob g inp (tshift g c mu (-1)))) c
    (fun o mu => by rw [fw_eq ok _ _ _ _ _ _ _ _ hc, if_neg (by simp), bw_eq ok _ _ _ _ _ _ _ _ hc, if_neg (by simp), add_assoc]) (List.finRange 4) (fun _ _ => 0) 0
  unfold Laplace_operator lap
  show (fun id k => glob g (_ : Fld) c id k - _ * (_ : Nat) * glob g inp c id k) = _
  simp only
  rw [h1, h2, show glob g (fun _ _ => (0 : SpCol)) c = 0 from rfl, zero_add, zero_add]
  rw [sum_finRange, sum_finRange]
  have hn : ((∑ mu : Dir, if ds mu then 1 else 0 : Nat) : ℂ) = ∑ mu : Dir, if ds mu then (1 : ℂ) else 0 := by push_cast; rfl
  rw [hn]
  funext id k
  rw [Finset.sum_apply, Finset.sum_apply, Finset.sum_apply, Finset.sum_apply, Finset.mul_sum, Finset.sum_mul, ← Finset.sum_sub_distrib]
  refine Finset.sum_congr rfl fun mu _ => ?_
  cases ds mu <;> simp

/-- **C67**.  The Laplace operator made with two links: for unitary links it is a quarter of the sum of the squares of the covariant derivative. -/
theorem C67_laplace2 (ji : Nat) (jq : Quad) (jv : SpCol) (conf : Nat → Nat → Quad) (ds : Dir → Bool) (inp : Fld) (hU : ∀ mu, ∀ c ∈ box g.L, (glob g conf c mu)ᴴ * glob g conf c mu = 1) {c : Coords}
    (hc : c ∈ box g.L) :
    glob g (Laplace_operator_2_links g ji jq jv conf ds inp) c = (1 / 4 : ℂ) • ∑ mu : Dir, if ds mu then nabla g (glob g conf) mu (nabla g (glob g conf) mu (glob g inp)) c else 0 := by
  set U := glob g conf with hUd
  set x := glob g inp with hx
  obtain ⟨h1, h2⟩ := fold_pair (g := g) ds (fun o mu => cshift_fw g ji jq jv conf mu (cshift_fw g ji jq jv conf mu inp (cshift_bw g ji jq jv conf mu inp (fun _ _ => jv) true) true)
      (cshift_bw g ji jq jv conf mu (cshift_bw g ji jq jv conf mu inp (fun _ _ => jv) true) o false) false)
    (fun mu c => colMul (U c mu) (colMul (U (tshift g c mu 1) mu) (x (tshift g (tshift g c mu 1) mu 1))) +
      colMul (U (tshift g c mu (-1)) mu)ᴴ (colMul (U (tshift g (tshift g c mu (-1)) mu (-1)) mu)ᴴ (x (tshift g (tshift g c mu (-1)) mu (-1))))) c
    (fun o mu => by
      have hu := tshift_mem_box ok hc mu 1
      have hd := tshift_mem_box ok hc mu (-1)
      rw [fw_eq ok _ _ _ _ _ _ _ _ hc, if_neg (by simp), bw_eq ok _ _ _ _ _ _ _ _ hc, if_neg (by simp), add_assoc, bw_eq ok _ _ _ _ _ _ _ _ hu, if_pos rfl, zero_add,
        fw_eq ok _ _ _ _ _ _ _ _ hd, if_pos rfl, zero_add]) (List.finRange 4) (fun _ _ => 0) 0
  unfold Laplace_operator_2_links
  show (fun id k => glob g (_ : Fld) c id k * _ - (_ : Nat) * glob g inp c id k / 2) = _
  simp only
  rw [h1, h2, show glob g (fun _ _ => (0 : SpCol)) c = 0 from rfl, zero_add, zero_add, sum_finRange, sum_finRange]
  have hn : ((∑ mu : Dir, if ds mu then 1 else 0 : Nat) : ℂ) = ∑ mu : Dir, if ds mu then (1 : ℂ) else 0 := by push_cast; rfl
  rw [hn, ← hx]
  have hsq : ∀ mu, nabla g U mu (nabla g U mu x) c = colMul (U c mu) (colMul (U (tshift g c mu 1) mu) (x (tshift g (tshift g c mu 1) mu 1))) +
      colMul (U (tshift g c mu (-1)) mu)ᴴ (colMul (U (tshift g (tshift g c mu (-1)) mu (-1)) mu)ᴴ (x (tshift g (tshift g c mu (-1)) mu (-1)))) - (2 : ℂ) • x c := by
    intro mu
    have hcs : ∀ (V : M3) (u v : SpCol), colMul V (u - v) = colMul V u - colMul V v := fun V u v => by funext i; simp [colMul, mulVec_sub]
    have hone : ∀ v : SpCol, colMul 1 v = v := fun v => by funext i; simp [colMul]
    unfold nabla
    rw [tdn_up ok hc, tup_dn ok hc, hcs, hcs, colMul_colMul (U c mu) (U c mu)ᴴ, colMul_colMul (U (tshift g c mu (-1)) mu)ᴴ (U (tshift g c mu (-1)) mu), hU mu _ (tshift_mem_box ok hc mu (-1)),
      mul_eq_one_comm.mp (hU mu c hc), hone, two_smul]
    abel
  funext id k
  rw [Finset.sum_apply, Finset.sum_apply, Pi.smul_apply, Pi.smul_apply, Finset.sum_apply, Finset.sum_apply, Finset.smul_sum, Finset.sum_mul, Finset.sum_mul, Finset.sum_div, ← Finset.sum_sub_distrib]
  refine Finset.sum_congr rfl fun mu _ => ?_
  rw [hsq]
  cases ds mu
  · simp
  · simp; ring

/-- **C67**.  The covariant derivative is antihermitian. -/
theorem C67_nabla_antiherm (ji : Nat) (jq : Quad) (jv : SpCol) (jc : Coords) (conf : Nat → Nat → Quad) (mu : Dir) (x y : Fld) :
    ∑ c ∈ box g.L, ip (glob g y c) (glob g (apply_nabla_i g ji jq jv jc conf mu (-1) x) c) = -∑ c ∈ box g.L, ip (glob g (apply_nabla_i g ji jq jv jc conf mu (-1) y) c) (glob g x c) := by
  have e : ∀ z : Fld, ∀ c ∈ box g.L, glob g (apply_nabla_i g ji jq jv jc conf mu (-1) z) c = nabla g (glob g conf) mu (glob g z) c := fun z c hc => by
    rw [C67_nabla ok _ _ _ _ _ _ _ _ hc, atTime_eq, if_pos (show At (-1) c from Or.inl rfl)]
  have e1 : ∀ c ∈ box g.L, ip (glob g y c) (glob g (apply_nabla_i g ji jq jv jc conf mu (-1) x) c) = ip (glob g y c) (nabla g (glob g conf) mu (glob g x) c) := fun c hc => by rw [e x c hc]
  have e2 : ∀ c ∈ box g.L, ip (glob g (apply_nabla_i g ji jq jv jc conf mu (-1) y) c) (glob g x c) = ip (nabla g (glob g conf) mu (glob g y) c) (glob g x c) := fun c hc => by rw [e y c hc]
  rw [Finset.sum_congr rfl e1, Finset.sum_congr rfl e2]
  unfold nabla
  simp only [ip_sub, sub_ip, Finset.sum_sub_distrib]
  have s1 := sum_shift ok mu (d := 1) (Or.inl rfl) (fun c d => ip (glob g y c) (colMul (glob g conf c mu) (glob g x d)))
  have s2 := sum_shift ok mu (d := 1) (Or.inl rfl) (fun c d => ip (colMul (glob g conf c mu) (glob g y d)) (glob g x c))
  beta_reduce at s1 s2
  rw [s1, s2]
  simp only [ip_col, conjTranspose_conjTranspose]
  ring

/-- **C67**.  The Laplace operator is hermitian. -/
theorem C67_laplace_herm (ji : Nat) (jq : Quad) (jv : SpCol) (conf : Nat → Nat → Quad) (ds : Dir → Bool) (x y : Fld) :
    ∑ c ∈ box g.L, ip (glob g y c) (glob g (Laplace_operator g ji jq jv conf ds x) c) = ∑ c ∈ box g.L, ip (glob g (Laplace_operator g ji jq jv conf ds y) c) (glob g x c) := by
  have e1 : ∀ c ∈ box g.L, ip (glob g y c) (glob g (Laplace_operator g ji jq jv conf ds x) c) = ip (glob g y c) (lap g (glob g conf) ds (glob g x) c) :=
    fun c hc => by rw [C67_laplace ok _ _ _ _ _ _ hc]
  have e2 : ∀ c ∈ box g.L, ip (glob g (Laplace_operator g ji jq jv conf ds y) c) (glob g x c) = ip (lap g (glob g conf) ds (glob g y) c) (glob g x c) :=
    fun c hc => by rw [C67_laplace ok _ _ _ _ _ _ hc]
  rw [Finset.sum_congr rfl e1, Finset.sum_congr rfl e2]
  unfold lap
  simp only [ip_sum, sum_ip]
  rw [Finset.sum_comm, Finset.sum_comm (s := box g.L)]
  refine Finset.sum_congr rfl fun mu _ => ?_
  cases ds mu
  · simp [ip]
  · simp only [if_true, ip_sub, sub_ip, ip_add, add_ip, ip_smul, smul_ip, Finset.sum_sub_distrib, Finset.sum_add_distrib]
    have s1 := sum_shift ok mu (d := 1) (Or.inl rfl) (fun c d => ip (glob g y c) (colMul (glob g conf c mu) (glob g x d)))
    have s2 := sum_shift ok mu (d := 1) (Or.inl rfl) (fun c d => ip (colMul (glob g conf c mu) (glob g y d)) (glob g x c))
    beta_reduce at s1 s2
    rw [s1, s2]
    simp only [ip_col, conjTranspose_conjTranspose]
    rw [show star (2 : ℂ) = 2 by simp]
    ring

/-- **C67**.  With unitary links it is minus the sum of the squares of the forward differences: no eigenvalue is positive. -/
theorem C67_laplace_neg (ji : Nat) (jq : Quad) (jv : SpCol) (conf : Nat → Nat → Quad) (ds : Dir → Bool) (x : Fld) (hU : ∀ mu, ∀ c ∈ box g.L, (glob g conf c mu)ᴴ * glob g conf c mu = 1) :
    ∑ c ∈ box g.L, ip (glob g x c) (glob g (Laplace_operator g ji jq jv conf ds x) c) =
      -∑ c ∈ box g.L, ∑ mu : Dir, if ds mu then ip (fdiff g (glob g conf) mu (glob g x) c) (fdiff g (glob g conf) mu (glob g x) c) else 0 := by
  rw [Finset.sum_congr rfl fun c hc => by rw [C67_laplace ok _ _ _ _ _ _ hc]]
  unfold lap
  simp only [ip_sum]
  rw [← Finset.sum_neg_distrib]
  simp only [← Finset.sum_neg_distrib]
  rw [Finset.sum_comm, Finset.sum_comm (s := box g.L)]
  refine Finset.sum_congr rfl fun mu _ => ?_
  cases ds mu
  · simp [ip]
  · simp only [if_true]
    unfold fdiff
    simp only [ip_sub, sub_ip, ip_add, ip_smul]
    have hn : ∀ c ∈ box g.L, ip (colMul (glob g conf c mu) (glob g x (tshift g c mu 1))) (colMul (glob g conf c mu) (glob g x (tshift g c mu 1))) = ip (glob g x (tshift g c mu 1)) (glob g x (tshift g c mu 1)) := by
      intro c hc
      rw [ip_col, colMul_colMul, hU mu c hc]
      congr 1; funext i; simp [colMul]
    have s1 := sum_shift ok mu (d := 1) (Or.inl rfl) (fun c d => ip (glob g x d) (glob g x d))
    have s2 := sum_shift ok mu (d := 1) (Or.inl rfl) (fun c d => ip (colMul (glob g conf c mu) (glob g x d)) (glob g x c))
    beta_reduce at s1 s2
    rw [Finset.sum_neg_distrib]
    simp only [Finset.sum_sub_distrib, Finset.sum_add_distrib]
    rw [Finset.sum_congr rfl hn, s1, s2, ← Finset.mul_sum]
    simp only [ip_col, conjTranspose_conjTranspose]
    ring

end

/-- **C67**.  Removing the photon after including it gives the configuration back. -/
theorem C67_remove (A : Nat → Nat → S1) (q : ℝ) (conf : Nat → Nat → Quad) : rem_photon_field_to_conf A q (add_photon_field_to_conf A q conf) = conf := by
  funext rk i mu
  unfold rem_photon_field_to_conf add_photon_field_to_conf
  simp only [phase_eq]
  rw [smul_smul]
  unfold phase
  rw [← Complex.exp_add]
  rw [show -(I * ((eCharge * (A rk i mu).re / 3 : ℝ) : ℂ)) * ((-q : ℝ) : ℂ) + -(I * ((eCharge * (A rk i mu).re / 3 : ℝ) : ℂ)) * (q : ℂ) = 0 by push_cast; ring, Complex.exp_zero, one_smul]

/-- **C67**.  Two charges add up, and the configuration remains unitary: the photon is a phase. -/
theorem C67_charges_add (A : Nat → Nat → S1) (p q : ℝ) (conf : Nat → Nat → Quad) : add_photon_field_to_conf A p (add_photon_field_to_conf A q conf) = add_photon_field_to_conf A (p + q) conf := by
  funext rk i mu
  unfold add_photon_field_to_conf
  simp only [phase_eq]
  rw [smul_smul]
  unfold phase
  rw [← Complex.exp_add]
  congr 2
  push_cast; ring

theorem C67_unitary (A : Nat → Nat → S1) (q : ℝ) (conf : Nat → Nat → Quad) (rk i : Nat) (mu : Dir) (h : (conf rk i mu)ᴴ * conf rk i mu = 1) :
    (add_photon_field_to_conf A q conf rk i mu)ᴴ * add_photon_field_to_conf A q conf rk i mu = 1 := by
  unfold add_photon_field_to_conf
  simp only [phase_eq]
  rw [conjTranspose_smul, smul_mul_smul_comm, h, phase_star]
  unfold phase
  rw [← Complex.exp_add]
  rw [show -(I * ((eCharge * (A rk i mu).re / 3 : ℝ) : ℂ)) * ((-q : ℝ) : ℂ) + -(I * ((eCharge * (A rk i mu).re / 3 : ℝ) : ℂ)) * (q : ℂ) = 0 by push_cast; ring, Complex.exp_zero, one_smul]

end

/-! ### The configuration kept -/

section
variable {P V Ch Th A : Type} [DecidableEq P] [DecidableEq Ch] [DecidableEq Th]

/-- run of a sequence -/
def crun (adapt : Th → V → V) (addPhoton : A → Ch → V → V) (noCharge : Ch) (s : CSt P V Ch Th A) (l : List (COp P V Ch Th A)) : CSt P V Ch Th A := l.foldl (cstep adapt addPhoton noCharge) s

/-- the configurations after the sequence: those of the last `setup` -/
def lastConfs (l : List (COp P V Ch Th A)) (c0 : P → V) : P → V := l.foldl (fun c o => match o with | .setup c' => c' | _ => c) c0

/-- the photon after the sequence -/
def lastPhoton (l : List (COp P V Ch Th A)) (a0 : A) : A := l.foldl (fun a o => match o with | .newPhoton a' => a' | _ => a) a0

theorem crun_inv (adapt : Th → V → V) (addPhoton : A → Ch → V → V) (noCharge : Ch) (l : List (COp P V Ch Th A)) (s : CSt P V Ch Th A)
    (h : s.inner_conf_valid = true → ∃ p, s.stored_conf = some p ∧ s.inner_conf = fresh adapt addPhoton noCharge (s.confs p) s.photon s.stored_charge s.stored_theta) :
    let s' := crun adapt addPhoton noCharge s l
    s'.confs = lastConfs l s.confs ∧ s'.photon = lastPhoton l s.photon ∧
      (s'.inner_conf_valid = true → ∃ p, s'.stored_conf = some p ∧ s'.inner_conf = fresh adapt addPhoton noCharge (s'.confs p) s'.photon s'.stored_charge s'.stored_theta) := by
  induction l generalizing s with
  | nil => exact ⟨rfl, rfl, h⟩
  | cons o l ih =>
    have key : ∀ s1, cstep adapt addPhoton noCharge s o = s1 → (s1.inner_conf_valid = true → ∃ p, s1.stored_conf = some p ∧ s1.inner_conf = fresh adapt addPhoton noCharge (s1.confs p) s1.photon s1.stored_charge s1.stored_theta) := by
      intro s1 h1
      subst h1
      cases o with
      | setup c => intro hv; simp [cstep] at hv
      | newPhoton a => intro hv; simp [cstep] at hv
      | get ch th p =>
        intro _
        refine ⟨p, rfl, ?_⟩
        unfold cstep get_updated_conf fresh
        simp only
        by_cases h1 : s.stored_conf = some p <;> by_cases h2 : ch = s.stored_charge <;> by_cases h3 : th = s.stored_theta <;> simp only [h1, h2, h3, ne_eq, not_true_eq_false, not_false_eq_true, if_true, if_false]
        · cases hv : s.inner_conf_valid
          · by_cases h4 : s.stored_charge = noCharge <;> simp [h4]
          · obtain ⟨p', hp, hi⟩ := h hv
            have : p' = p := by rw [h1] at hp; exact (Option.some.inj hp).symm
            subst this
            simp only [Bool.true_eq_false, if_false, hi, fresh]
        all_goals (first | (by_cases h4 : s.stored_charge = noCharge <;> simp [h4]; done) | (by_cases h4 : ch = noCharge <;> simp [h4]))
    obtain ⟨k1, k2, k3⟩ := ih (cstep adapt addPhoton noCharge s o) (key _ rfl)
    refine ⟨?_, ?_, k3⟩
    · show (crun adapt addPhoton noCharge (cstep adapt addPhoton noCharge s o) l).confs = _
      rw [k1]
      cases o <;> rfl
    · show (crun adapt addPhoton noCharge (cstep adapt addPhoton noCharge s o) l).photon = _
      rw [k2]
      cases o <;> rfl

/-- **C67**.  Configuration for the inversions: whatever was asked before, of which charges, boundary conditions and configurations (plain or smeared), and with new configurations and photons in any
order, what `get_updated_conf` returns is the configuration that is now at the pointer, with the boundary conditions asked and the present photon at the charge asked: the one kept is never out of date.
At the start none is kept. -/
theorem C67_updated_conf (adapt : Th → V → V) (addPhoton : A → Ch → V → V) (noCharge : Ch) (s : CSt P V Ch Th A) (hs : s.inner_conf_valid = false) (l : List (COp P V Ch Th A)) (charge : Ch) (theta : Th)
    (p : P) :
    (get_updated_conf adapt addPhoton noCharge (crun adapt addPhoton noCharge s l) charge theta p).2 =
      let U := adapt theta (lastConfs l s.confs p)
      if charge = noCharge then U else addPhoton (lastPhoton l s.photon) charge U := by
  have h := crun_inv adapt addPhoton noCharge (l ++ [.get charge theta p]) s (fun h => by rw [hs] at h; exact absurd h (by decide))
  have h0 := crun_inv adapt addPhoton noCharge l s (fun h => by rw [hs] at h; exact absurd h (by decide))
  have e : crun adapt addPhoton noCharge s (l ++ [.get charge theta p]) = (get_updated_conf adapt addPhoton noCharge (crun adapt addPhoton noCharge s l) charge theta p).1 := by
    unfold crun; rw [List.foldl_append]; rfl
  simp only [e] at h
  obtain ⟨_, _, h3⟩ := h
  obtain ⟨q, hq, hi⟩ := h3 rfl
  have hq' : q = p := (Option.some.inj hq).symm
  subst hq'
  show (get_updated_conf adapt addPhoton noCharge (crun adapt addPhoton noCharge s l) charge theta q).1.inner_conf = _
  rw [hi]
  show fresh adapt addPhoton noCharge ((crun adapt addPhoton noCharge s l).confs q) (crun adapt addPhoton noCharge s l).photon charge theta = _
  rw [h0.1, h0.2.1]
  rfl

end

end Nissa.Vertex
