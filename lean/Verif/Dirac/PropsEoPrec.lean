import Verif.Dirac.EoPrec

/-! # C41: even/odd preconditioned operators -/

set_option linter.all false

namespace Nissa.EoP
open Nissa.Lx Nissa.Sten Nissa.Su3f Nissa.Gauge Nissa.Gamma Nissa.StD Nissa.Wilson Matrix Complex

theorem wilson_congr {g : Geo} {anis : Option ℝ} {U : Coords → Quad} {x y : Coords → SpCol} {c : Coords}
    (h : ∀ mu, x (tshift g c mu 1) = y (tshift g c mu 1) ∧ x (tshift g c mu (-1)) = y (tshift g c mu (-1))) : wilson g anis U x c = wilson g anis U y c := by
  unfold wilson
  refine Finset.sum_congr rfl fun mu _ => ?_
  rw [(h mu).1, (h mu).2]

theorem wilson_congrU {g : Geo} {anis : Option ℝ} {U V : Coords → Quad} {x : Coords → SpCol} {c : Coords} (hc : U c = V c)
    (h : ∀ mu, U (tshift g c mu (-1)) = V (tshift g c mu (-1))) : wilson g anis U x c = wilson g anis V x c := by
  unfold wilson
  refine Finset.sum_congr rfl fun mu _ => ?_
  rw [hc, h mu]

theorem dee_eq (kappa mu : ℝ) (inp : HFld) (rk X : Nat) : tmDee kappa mu inp rk X = diagSpec (1 / (2 * kappa)) mu (fun _ => 0) (inp rk X) := by
  have e : (⟨1 / (2 * kappa), mu⟩ : ℂ) = ((1 / (2 * kappa) : ℝ) : ℂ) + mu * I := by apply Complex.ext <;> simp
  funext i
  have g5 := gamma5_apply (inp rk X) i
  funext a
  unfold tmDee diagSpec
  simp only [Pi.add_apply, Pi.smul_apply, g5, e, Pi.zero_apply, smul_eq_mul]
  by_cases h : (i : Nat) < 2
  · simp only [h, if_true]; push_cast; ring
  · simp only [h, if_false, star_add, star_mul', Complex.star_def, Complex.conj_ofReal, Complex.conj_I]; push_cast; ring

/-- C41: `inv_tmDee_or_oo_eos` undoes `tmDee_or_oo_eos` and conversely, unless both coefficients vanish -/
theorem C41_inv_tmDee (kappa mu : ℝ) (h : 1 / (2 * kappa) ≠ 0 ∨ mu ≠ 0) (inp : HFld) :
    inv_tmDee kappa mu (tmDee kappa mu inp) = inp ∧ tmDee kappa mu (inv_tmDee kappa mu inp) = inp := by
  have hz : ∀ a b : ℝ, a ≠ 0 ∨ b ≠ 0 → (⟨a / (a * a + b * b), -b / (a * a + b * b)⟩ : ℂ) * ⟨a, b⟩ = 1 := by
    intro a b h
    have hn : a * a + b * b ≠ 0 := by
      rcases h with h | h
      · have := mul_self_pos.2 h; nlinarith [mul_self_nonneg b]
      · have := mul_self_pos.2 h; nlinarith [mul_self_nonneg a]
    apply Complex.ext
    · simp only [Complex.mul_re, Complex.one_re]; field_simp; rw [sub_neg_eq_add]; exact div_self (by rwa [pow_two, pow_two])
    · simp only [Complex.mul_im, Complex.one_im]; field_simp; ring
  have h1 := hz _ _ h
  set z : ℂ := ⟨1 / (2 * kappa), mu⟩
  set w : ℂ := ⟨1 / (2 * kappa) / (1 / (2 * kappa) * (1 / (2 * kappa)) + mu * mu), -mu / (1 / (2 * kappa) * (1 / (2 * kappa)) + mu * mu)⟩
  have h2 := congrArg star h1
  rw [star_mul', star_one] at h2
  have d : ∀ (x : HFld) (rk X : Nat) (i : Fin 4) (a : Fin 3), tmDee kappa mu x rk X i a = if (i : Nat) < 2 then x rk X i a * z else x rk X i a * star z := fun _ _ _ _ _ => rfl
  have d' : ∀ (x : HFld) (rk X : Nat) (i : Fin 4) (a : Fin 3), inv_tmDee kappa mu x rk X i a = if (i : Nat) < 2 then x rk X i a * w else x rk X i a * star w := fun _ _ _ _ _ => rfl
  constructor <;>
  · funext rk X i a
    simp only [d, d']
    by_cases hi : (i : Nat) < 2
    · simp only [hi, if_true]; linear_combination (inp rk X i a) * h1
    · simp only [hi, if_false]; linear_combination (inp rk X i a) * h2

/-- the same at a site -/
noncomputable def invDiag (kappa mu : ℝ) (v : SpCol) : SpCol := inv_tmDee kappa mu (fun _ _ => v) 0 0

theorem inv_dee_eq (kappa mu : ℝ) (inp : HFld) (rk X : Nat) : inv_tmDee kappa mu inp rk X = invDiag kappa mu (inp rk X) := rfl

theorem put_eq (out temp : HFld) (rk X : Nat) : put_together out temp rk X = spinMul (Γ 5) (temp rk X - (1 / 4 : ℂ) • out rk X) := by
  funext i
  rw [gamma5_apply]
  funext a
  unfold put_together
  simp only [Pi.smul_apply, Pi.sub_apply, smul_eq_mul]
  by_cases h : (i : Nat) < 2
  · simp only [h, if_true]; push_cast; norm_num; ring
  · simp only [h, if_false]; push_cast; norm_num; ring

theorem scBlock (k mu : ℝ) (Cl : Clov) (v : SpCol) (kappa : ℝ) (hk : k = 1 / (2 * kappa)) :
    (![point_twisted mu kappa (Cl 0) (Cl 1) ![v 0, v 1] 0, point_twisted mu kappa (Cl 0) (Cl 1) ![v 0, v 1] 1,
      point_twisted (-mu) kappa (Cl 2) (Cl 3) ![v 2, v 3] 0, point_twisted (-mu) kappa (Cl 2) (Cl 3) ![v 2, v 3] 1] : SpCol) =
    diagSpec k mu (scMul (cloverBlock Cl)) v := by
  have e : ∀ m : ℝ, (⟨1 / (2 * kappa), m⟩ : ℂ) = (k : ℂ) + m * I := by intro m; rw [hk]; apply Complex.ext <;> simp
  unfold diagSpec
  rw [← clover_eq]
  funext i
  have g5 := gamma5_apply v i
  rw [Pi.add_apply, Pi.add_apply, Pi.smul_apply, Pi.smul_apply, g5]
  unfold point_twisted
  simp only [e]
  fin_cases i <;> (funext a; simp [point_chromo_to_spincolor]; ring)

theorem clovDee_eq (kappa : ℝ) (Cl : Nat → Nat → Clov) (dag : Bool) (mu : ℝ) (inp : HFld) (rk X : Nat) :
    tmclovDee kappa Cl dag mu inp rk X = diagSpec (1 / (2 * kappa)) (if dag then -mu else mu) (scMul (cloverBlock (Cl rk X))) (inp rk X) := by
  rw [← scBlock _ _ _ _ kappa rfl]
  rfl

theorem inv_clovDee_eq (invCl : Nat → Nat → InvClov) (dag : Bool) (inp : HFld) (rk X : Nat) :
    inv_tmclovDee invCl dag inp rk X = invClSpec dag (invCl rk X) (inp rk X) := by
  unfold inv_tmclovDee invClSpec
  cases dag <;> · funext i; fin_cases i <;> simp [setHalf, half]

section
variable {g : Geo} (ok : g.Ok) (eo : EoOk g)
include ok eo

/-- C41: `tmn2Deo_or_tmn2Doe_eos` is the Wilson hopping, for both parities of the output, on any grid of ranks -/
theorem C41_hopping (ji : Nat) (jq : Quad) (jv : SpCol) (conf : Nat → Nat → Nat → Quad) (anis : Option ℝ) {p : Nat} (hp : p < 2) (inp : HFld) {c : Coords}
    (hc : c ∈ boxP g p) : globH g (tmn2D g ji jq jv conf anis p inp) c = wilson g anis (globEo g conf) (globH g inp) c := by
  obtain ⟨hb, hpc⟩ := mem_boxP.1 hc
  obtain ⟨rk, e, l, h1, h2, hr, hl, hx, -, hG⟩ := eoSiteOf ok eo hb
  rw [hpc] at hl
  rw [hG]
  unfold tmn2D hMem
  simp only [hopFold_eq]
  rw [eoMem_here ok eo jq conf hr hp h2 hl hx]
  simp only [eoMem_dw ok eo jq ji conf hr hp h2 hl hx, eoMem_up ok eo jv ji (fun rk _ e => inp rk e) hr hp h2 hl hx,
    eoMem_dw ok eo jv ji (fun rk _ e => inp rk e) hr hp h2 hl hx]
  rfl

omit ok eo in
/-- value of a half field obtained site by site -/
theorem globH_map {V W : Type} (F : Nat → Nat → V) (G : Nat → Nat → W) (h : Nat → Nat → V → W) (hF : ∀ rk e, G rk e = h rk e (F rk e)) (c : Coords) :
    globH g G c = globH g (fun rk e => h rk e (F rk e)) c := by
  unfold globH globEo
  simp only [hF]

/-- the Schur complement computed by any kernel of this form -/
theorem kern_eq (ji : Nat) (jq : Quad) (jv : SpCol) (conf : Nat → Nat → Nat → Quad) (anis : Option ℝ) (A B : Nat → Nat → SpCol → SpCol)
    (A' B' : Coords → SpCol → SpCol) (inp : HFld)
    (hA : ∀ c ∈ boxP g 1, ∀ x : HFld, globH g (fun rk e => A rk e (x rk e)) c = A' c (globH g x c))
    (hB : ∀ c ∈ boxP g 0, ∀ x : HFld, globH g (fun rk e => B rk e (x rk e)) c = B' c (globH g x c)) {c : Coords} (hc : c ∈ boxP g 1) :
    globH g (put_together (tmn2D g ji jq jv conf anis 1 (fun rk e => B rk e (tmn2D g ji jq jv conf anis 0 inp rk e))) (fun rk e => A rk e (inp rk e))) c =
      Kspec g anis (globEo g conf) A' B' (globH g inp) c := by
  have h1 := C41_hopping ok eo ji jq jv conf anis (by omega : 1 < 2) (fun rk e => B rk e (tmn2D g ji jq jv conf anis 0 inp rk e)) hc
  have h2 := hA c hc inp
  obtain ⟨rk, e, l, -, -, -, -, -, -, hG⟩ := eoSiteOf ok eo (mem_boxP.1 hc).1
  rw [hG] at h1 h2 ⊢
  rw [put_eq, h1, h2]
  unfold Kspec
  congr 3
  refine wilson_congr fun mu => ?_
  have go : ∀ y ∈ boxP g 0, globH g (fun rk e => B rk e (tmn2D g ji jq jv conf anis 0 inp rk e)) y = B' y (wilson g anis (globEo g conf) (globH g inp) y) := by
    intro y hy
    rw [hB y hy, C41_hopping ok eo ji jq jv conf anis (by omega : 0 < 2) inp hy]
  exact ⟨go _ (tshift_mem_boxP ok eo hc mu (.inl rfl)), go _ (tshift_mem_boxP ok eo hc mu (.inr rfl))⟩

/-- C41: `tmDkern_eoprec_eos`: `gamma5` times the Schur complement on the odd sites, for any grid of ranks -/
theorem C41_tmDkern (ji : Nat) (jq : Quad) (jv : SpCol) (conf : Nat → Nat → Nat → Quad) (kappa : ℝ) (anis : Option ℝ) (mu : ℝ) (inp : HFld) {c : Coords}
    (hc : c ∈ boxP g 1) : globH g (tmDkern g ji jq jv conf kappa anis mu inp) c =
      Kspec g anis (globEo g conf) (fun _ => diagSpec (1 / (2 * kappa)) mu fun _ => 0) (fun _ => invDiag kappa mu) (globH g inp) c := by
  have e1 : tmDee kappa mu inp = fun rk X => diagSpec (1 / (2 * kappa)) mu (fun _ => 0) (inp rk X) := funext fun rk => funext fun X => dee_eq kappa mu inp rk X
  have e2 : ∀ x : HFld, inv_tmDee kappa mu x = fun rk X => invDiag kappa mu (x rk X) := fun _ => rfl
  have := kern_eq ok eo ji jq jv conf anis (fun _ _ => diagSpec (1 / (2 * kappa)) mu fun _ => 0) (fun _ _ => invDiag kappa mu)
    (fun _ => diagSpec (1 / (2 * kappa)) mu fun _ => 0) (fun _ => invDiag kappa mu) inp (fun _ _ _ => rfl) (fun _ _ _ => rfl) hc
  unfold tmDkern
  simp only [e1, e2]
  exact this

/-- C41: `tmclovDkern_eoprec_eos`, and its dagger variant -/
theorem C41_tmclovDkern (ji : Nat) (jq : Quad) (jv : SpCol) (conf : Nat → Nat → Nat → Quad) (kappa : ℝ) (anis : Option ℝ) (Cl_odd : Nat → Nat → Clov)
    (invCl_evn : Nat → Nat → InvClov) (dag : Bool) (mu : ℝ) (inp : HFld) {c : Coords} (hc : c ∈ boxP g 1) :
    globH g (tmclovDkern g ji jq jv conf kappa anis Cl_odd invCl_evn dag mu inp) c =
      Kspec g anis (globEo g conf) (fun c => diagSpec (1 / (2 * kappa)) (if dag then -mu else mu) (scMul (cloverBlock (globH g Cl_odd c))))
        (fun c => invClSpec dag (globH g invCl_evn c)) (globH g inp) c := by
  have e1 : tmclovDee kappa Cl_odd dag mu inp = fun rk X => diagSpec (1 / (2 * kappa)) (if dag then -mu else mu) (scMul (cloverBlock (Cl_odd rk X))) (inp rk X) :=
    funext fun rk => funext fun X => clovDee_eq _ _ _ _ _ _ _
  have e2 : ∀ x : HFld, inv_tmclovDee invCl_evn dag x = fun rk X => invClSpec dag (invCl_evn rk X) (x rk X) :=
    fun x => funext fun rk => funext fun X => inv_clovDee_eq _ _ _ _ _
  have := kern_eq ok eo ji jq jv conf anis (fun rk X => diagSpec (1 / (2 * kappa)) (if dag then -mu else mu) (scMul (cloverBlock (Cl_odd rk X))))
    (fun rk X => invClSpec dag (invCl_evn rk X)) (fun c => diagSpec (1 / (2 * kappa)) (if dag then -mu else mu) (scMul (cloverBlock (globH g Cl_odd c))))
    (fun c => invClSpec dag (globH g invCl_evn c)) inp (fun _ _ _ => rfl) (fun _ _ _ => rfl) hc
  unfold tmclovDkern
  simp only [e1, e2]
  exact this

end

end Nissa.EoP
