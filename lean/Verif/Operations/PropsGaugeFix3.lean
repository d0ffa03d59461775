import Verif.Operations.PropsGaugeFix2
import Verif.Operations.PropsFft

/-! # C60: the Fourier acceleration of the derivative -/

set_option linter.all false

namespace Nissa.GFix
open Nissa.Lx Nissa.Sten Nissa.Gauge Nissa.Su3f Nissa.Paths Nissa.GForce Nissa.Fft Matrix

noncomputable section

/-- the phase of the transform -/
def phase (L : Coords) (sign : Int) (p x : Coords) : ℂ := ∏ mu, root sign (L mu) ^ (p mu * x mu)

/-- what the Fourier transform of a field of matrices has to do -/
def FftOk (E : Env) : Prop := ∀ (sign : Int), sign = 1 ∨ sign = -1 → ∀ (norm : Bool) (f : Fld M3), ∀ p ∈ box E.g.L,
  glob E.g (E.fft sign norm f) p = (if norm then (E.g.glbVol : ℂ)⁻¹ else 1) • ∑ x ∈ box E.g.L, phase E.g.L sign p x • glob E.g f x

/-- the transform followed by the product with `K` and by the inverse transform -/
def accSpec (g : Geo) (K : Coords → ℝ) (phi : Coords → M3) (x : Coords) : M3 :=
  ∑ p ∈ box g.L, (phase g.L 1 x p * (K p : ℂ) * (g.glbVol : ℂ)⁻¹) • ∑ y ∈ box g.L, phase g.L (-1) p y • phi y

/-! ### phases -/

theorem phase_comm (L : Coords) (s : Int) (p x : Coords) : phase L s p x = phase L s x p := by
  unfold phase
  exact Finset.prod_congr rfl fun mu _ => by rw [Nat.mul_comm]

theorem root_conj (n : Nat) (s : Int) : (starRingEnd ℂ) (root s n) = root (-s) n := by
  unfold root
  rw [map_zpow₀, ← Complex.exp_conj, _root_.zpow_neg, ← _root_.inv_zpow, ← Complex.exp_neg]
  congr 2
  have h2 : (starRingEnd ℂ) 2 = 2 := Complex.conj_ofNat 2
  simp only [map_div₀, map_mul, h2, Complex.conj_ofReal, Complex.conj_I, map_natCast]
  ring

theorem phase_conj (L : Coords) (s : Int) (p x : Coords) : (starRingEnd ℂ) (phase L s p x) = phase L (-s) p x := by
  unfold phase
  rw [map_prod]
  exact Finset.prod_congr rfl fun mu _ => by rw [map_pow, root_conj]

/-- the opposite momentum -/
def refl (L p : Coords) : Coords := fun mu => (L mu - p mu) % L mu

theorem refl_mem {L p : Coords} (hp : p ∈ box L) : refl L p ∈ box L := by
  rw [mem_box] at hp ⊢
  intro mu
  exact Nat.mod_lt _ (by have := hp mu; omega)

theorem refl_refl {L p : Coords} (hp : p ∈ box L) : refl L (refl L p) = p := by
  rw [mem_box] at hp
  funext mu
  have h := hp mu
  unfold refl
  rcases Nat.eq_zero_or_pos (p mu) with h0 | h0
  · rw [h0]; simp
  · rw [Nat.mod_eq_of_lt (by omega : L mu - p mu < L mu), show L mu - (L mu - p mu) = p mu by omega, Nat.mod_eq_of_lt h]

theorem phase_refl {L p : Coords} (hp : p ∈ box L) (s : Int) (hs : s = 1 ∨ s = -1) (x : Coords) : phase L s (refl L p) x = phase L (-s) p x := by
  rw [mem_box] at hp
  unfold phase
  refine Finset.prod_congr rfl fun mu _ => ?_
  have h := hp mu
  obtain ⟨hw, hi⟩ := root_pow s hs (L mu) (by omega)
  rw [hi]
  unfold refl
  rcases Nat.eq_zero_or_pos (p mu) with h0 | h0
  · rw [h0]; simp
  · rw [Nat.mod_eq_of_lt (by omega : L mu - p mu < L mu)]
    have hw0 : root s (L mu) ≠ 0 := hw.ne_zero (by omega)
    have : root s (L mu) ^ ((L mu - p mu) * x mu) * root s (L mu) ^ (p mu * x mu) = 1 := by
      rw [← pow_add, ← Nat.add_mul, Nat.sub_add_cancel h.le, pow_mul, hw.pow_eq_one, one_pow]
    rw [inv_pow, eq_inv_of_mul_eq_one_left this]

theorem sum_refl {M : Type} [AddCommMonoid M] (L : Coords) (f : Coords → M) : ∑ p ∈ box L, f (refl L p) = ∑ p ∈ box L, f p :=
  Finset.sum_bij' (i := fun p _ => refl L p) (j := fun p _ => refl L p) (fun p hp => refl_mem hp) (fun p hp => refl_mem hp)
    (fun p hp => refl_refl hp) (fun p hp => refl_refl hp) (fun p hp => rfl)

/-- orthogonality of the phases on the lattice -/
theorem phase_orth {g : Geo} (ok : g.Ok) {x y : Coords} (hx : x ∈ box g.L) (hy : y ∈ box g.L) :
    ∑ p ∈ box g.L, phase g.L 1 x p * phase g.L (-1) p y = if x = y then (g.glbVol : ℂ) else 0 := by
  have hL := L_pos ok
  rw [mem_box] at hx hy
  have e : ∀ p, phase g.L 1 x p * phase g.L (-1) p y = ∏ mu, (root (-1) (g.L mu))⁻¹ ^ (x mu * p mu) * root (-1) (g.L mu) ^ (p mu * y mu) := by
    intro p
    unfold phase
    rw [← Finset.prod_mul_distrib]
    refine Finset.prod_congr rfl fun mu _ => ?_
    have := (root_pow (-1) (.inr rfl) (g.L mu) (hL mu)).2
    rw [neg_neg] at this
    rw [this]
  rw [Finset.sum_congr rfl fun p _ => e p]
  have := Finset.prod_univ_sum (fun mu => Finset.range (g.L mu)) (fun mu k => (root (-1) (g.L mu))⁻¹ ^ (x mu * k) * root (-1) (g.L mu) ^ (k * y mu))
  unfold box
  rw [← this, Finset.prod_congr rfl fun mu _ => orthogonality _ (g.L mu) (hL mu) (root_pow (-1) (.inr rfl) (g.L mu) (hL mu)).1 (y mu) (x mu) (hy mu) (hx mu)]
  by_cases h : x = y
  · subst h
    simp only [if_true]
    unfold Geo.glbVol volOfLx dirs
    rw [Fin.prod_univ_four]
    simp [List.foldl]
  · rw [if_neg h]
    obtain ⟨mu, hmu⟩ : ∃ mu, x mu ≠ y mu := by
      by_contra hc; push Not at hc; exact h (funext hc)
    exact Finset.prod_eq_zero (Finset.mem_univ mu) (if_neg (Ne.symm hmu))

/-! ### the acceleration -/

section
variable {g : Geo} (ok : g.Ok) (K : Coords → ℝ)
include ok

theorem acc_anti (hK : ∀ p ∈ box g.L, K (refl g.L p) = K p) (phi : Coords → M3) (h : InAlg g phi) : InAlg g (accSpec g K phi) := by
  intro x hx
  constructor
  · unfold accSpec
    rw [Matrix.conjTranspose_sum, ← Finset.sum_neg_distrib, ← sum_refl]
    refine Finset.sum_congr rfl fun p hp => ?_
    rw [Matrix.conjTranspose_smul, Matrix.conjTranspose_sum, ← smul_neg, ← Finset.sum_neg_distrib]
    congr 1
    · rw [phase_comm, phase_refl hp 1 (.inl rfl), hK p hp, phase_comm]
      rw [star_mul', star_mul']
      rw [show star (phase g.L (-1) x p) = phase g.L 1 x p from (phase_conj g.L (-1) x p).trans (by rw [neg_neg])]
      simp
    · refine Finset.sum_congr rfl fun y hy => ?_
      rw [Matrix.conjTranspose_smul, (h y hy).1, phase_refl hp (-1) (.inr rfl), neg_neg, smul_neg]
      rw [show star (phase g.L 1 p y) = phase g.L (-1) p y from phase_conj g.L 1 p y]
  · unfold accSpec
    rw [Matrix.trace_sum]
    refine Finset.sum_eq_zero fun p _ => ?_
    rw [Matrix.trace_smul, Matrix.trace_sum, Finset.sum_eq_zero, smul_zero]
    intro y hy
    rw [Matrix.trace_smul, (h y hy).2, smul_zero]

/-- the scalar product of the accelerated field with the field -/
theorem acc_ip (phi : Coords → M3) :
    ∑ x ∈ box g.L, (accSpec g K phi x * (phi x)ᴴ).trace.re =
      (g.glbVol : ℝ)⁻¹ * ∑ p ∈ box g.L, K p * su3_norm2 (∑ y ∈ box g.L, phase g.L (-1) p y • phi y) := by
  have e1 : ∀ x, (accSpec g K phi x * (phi x)ᴴ) = ∑ p ∈ box g.L, ((K p : ℂ) * (g.glbVol : ℂ)⁻¹) •
      ((∑ y ∈ box g.L, phase g.L (-1) p y • phi y) * (phase g.L (-1) p x • phi x)ᴴ) := by
    intro x
    unfold accSpec
    rw [Finset.sum_mul]
    refine Finset.sum_congr rfl fun p _ => ?_
    rw [Matrix.conjTranspose_smul, Matrix.mul_smul, smul_smul, Matrix.smul_mul]
    congr 1
    rw [show star (phase g.L (-1) p x) = phase g.L 1 p x from (phase_conj g.L (-1) p x).trans (by rw [neg_neg]), phase_comm]
    ring
  have e2 : ∑ x ∈ box g.L, (accSpec g K phi x * (phi x)ᴴ) = ∑ p ∈ box g.L, ((K p : ℂ) * (g.glbVol : ℂ)⁻¹) •
      ((∑ y ∈ box g.L, phase g.L (-1) p y • phi y) * (∑ y ∈ box g.L, phase g.L (-1) p y • phi y)ᴴ) := by
    rw [Finset.sum_congr rfl fun x _ => e1 x, Finset.sum_comm]
    refine Finset.sum_congr rfl fun p _ => ?_
    rw [← Finset.smul_sum, ← Finset.mul_sum, Matrix.conjTranspose_sum]
  rw [← Complex.re_sum, ← Matrix.trace_sum, e2, Matrix.trace_sum, Complex.re_sum, Finset.mul_sum]
  refine Finset.sum_congr rfl fun p _ => ?_
  rw [norm2_trace, Matrix.trace_smul, smul_eq_mul, ← Complex.ofReal_natCast, ← Complex.ofReal_inv, ← Complex.ofReal_mul, Complex.re_ofReal_mul]
  ring

/-- a field whose transform vanishes is zero -/
theorem phi_zero (phi : Coords → M3) (h : ∀ p ∈ box g.L, ∑ y ∈ box g.L, phase g.L (-1) p y • phi y = 0) (x : Coords) (hx : x ∈ box g.L) : phi x = 0 := by
  have e : ∑ p ∈ box g.L, phase g.L 1 x p • ∑ y ∈ box g.L, phase g.L (-1) p y • phi y = (g.glbVol : ℂ) • phi x := by
    simp only [Finset.smul_sum, smul_smul]
    rw [Finset.sum_comm]
    rw [Finset.sum_congr rfl fun y hy => by rw [← Finset.sum_smul, phase_orth ok hx hy]]
    rw [Finset.sum_eq_single x]
    · simp
    · intro y _ hne
      rw [if_neg hne.symm, zero_smul]
    · exact fun hn => absurd hx hn
  rw [Finset.sum_eq_zero fun p hp => by rw [h p hp, smul_zero]] at e
  have hv := glbVol_pos ok
  have : (g.glbVol : ℂ) ≠ 0 := by
    have : (g.glbVol : ℝ) ≠ 0 := hv.ne'
    exact_mod_cast this
  exact (smul_eq_zero.1 e.symm).resolve_left this

theorem acc_pos (hK : ∀ p ∈ box g.L, 0 < K p) (phi : Coords → M3) (hne : ∃ x ∈ box g.L, phi x ≠ 0) :
    0 < ∑ x ∈ box g.L, (accSpec g K phi x * (phi x)ᴴ).trace.re := by
  rw [acc_ip ok]
  have hv := glbVol_pos ok
  have hn : ∀ M : M3, 0 ≤ su3_norm2 M := fun M => by rw [norm2_trace]; exact normsq_nonneg M
  refine mul_pos (inv_pos.2 hv) ?_
  obtain ⟨p, hp, hpne⟩ : ∃ p ∈ box g.L, ∑ y ∈ box g.L, phase g.L (-1) p y • phi y ≠ 0 := by
    by_contra hc
    push Not at hc
    obtain ⟨x, hx, h⟩ := hne
    exact h (phi_zero ok phi hc x hx)
  refine Finset.sum_pos' (fun q hq => mul_nonneg (hK q hq).le (hn _)) ⟨p, hp, mul_pos (hK p hp) (lt_of_le_of_ne (hn _) fun h0 => hpne ?_)⟩
  rw [norm2_trace] at h0
  exact normsq_zero h0.symm

end

/-! ### the kernel of the code -/

theorem kernel_pos (L c : Coords) : 0 < faccFactor L c := by
  unfold faccFactor
  simp only
  split
  · rename_i h
    have h0 : 0 ≤ 4 * dirs.foldl (fun den mu => den + Real.sin (0.5 * (2 * Real.pi * c mu / L mu)) ^ 2) 0 := by
      unfold dirs; simp only [List.foldl]; positivity
    rw [abs_of_nonneg h0] at h
    refine div_pos (by norm_num) (lt_trans (by norm_num) h)
  · norm_num

theorem sin_refl {n p : Nat} (hp : p < n) :
    Real.sin (0.5 * (2 * Real.pi * ((n - p) % n : Nat) / n)) ^ 2 = Real.sin (0.5 * (2 * Real.pi * p / n)) ^ 2 := by
  rcases Nat.eq_zero_or_pos p with h0 | h0
  · subst h0; simp
  · rw [Nat.mod_eq_of_lt (by omega), Nat.cast_sub hp.le]
    have hn : (n : ℝ) ≠ 0 := by
      have : n ≠ 0 := by omega
      exact_mod_cast this
    have e : (0.5 * (2 * Real.pi * ((n : ℝ) - p) / n)) = Real.pi - 0.5 * (2 * Real.pi * p / n) := by
      field_simp
      ring
    rw [e, Real.sin_pi_sub]

theorem kernel_refl {L p : Coords} (hp : p ∈ box L) : faccFactor L (refl L p) = faccFactor L p := by
  rw [mem_box] at hp
  unfold faccFactor refl
  simp only [sin_refl (hp _)]

section
variable (E : Env) (ok : E.g.Ok)
include ok

theorem coordsOf_eq {rk i : Nat} {x : Coords} (h : glbCoordOfLoclx E.g (coordOfLx rk E.g.R) i = some x) : coordsOf E.g rk i = x := by
  unfold coordsOf; rw [h]; rfl

theorem facc_eq (hf : FftOk E) (der : Fld M3) (x : Coords) (hx : x ∈ box E.g.L) :
    glob E.g (fourierAccelerate E der) x = accSpec E.g (faccFactor E.g.L) (glob E.g der) x := by
  unfold fourierAccelerate
  simp only
  rw [hf 1 (.inl rfl) false _ x hx]
  simp only [Bool.false_eq_true, if_false, one_smul]
  unfold accSpec
  refine Finset.sum_congr rfl fun p hp => ?_
  have e : glob E.g (fun rk i => faccFactor E.g.L (coordsOf E.g rk i) • E.fft (-1) true der rk i) p =
      faccFactor E.g.L p • glob E.g (E.fft (-1) true der) p := by
    obtain ⟨rk, i, hrk, hi, hr, hc, hF⟩ := lxSite ok hp
    rw [hF, hF, coordsOf_eq E ok hc]
  rw [e, hf (-1) (.inr rfl) true der p hp]
  simp only [if_true]
  rw [← Complex.coe_smul, smul_smul, smul_smul]

theorem der_inAlg (start : Nat) (conf : Fld Quad) : InAlg E.g (glob E.g (derOf E start conf)) := by
  intro x hx
  rw [derOf_eq E ok _ _ hx, Matrix.conjTranspose_neg, Matrix.trace_neg, (diverg_inAlg ok _ _ x hx).1, (diverg_inAlg ok _ _ x hx).2]
  exact ⟨rfl, by simp⟩

theorem facc_inAlg (hf : FftOk E) {der : Fld M3} (h : InAlg E.g (glob E.g der)) : InAlg E.g (glob E.g (fourierAccelerate E der)) := by
  intro x hx
  rw [facc_eq E ok hf der x hx]
  exact acc_anti ok _ (fun p hp => kernel_refl hp) _ h x hx

/-- C60: the Fourier accelerated direction: it is in the algebra, and the functional along it starts with a negative slope if the quality
is not zero: it decreases for all the alpha small enough. -/
theorem C60_descent_fourier (hf : FftOk E) (he : E.expo = anti_hermitian_exact_exponentiate) (P : Pars) (ext : Fld Quad) (s : St)
    (hc : ∀ x ∈ box E.g.L, glob E.g s.conf x = transformed E.g (glob E.g s.fixer) (glob E.g ext) x)
    (h1 : s.useAdapt = false) (h2 : s.useGcg = false) (h3 : P.useFftAcc > 0 ∨ (s.iter : Int) < -P.useFftAcc)
    (hq : gqual E.g P.gauge (glob E.g s.conf) ≠ 0) :
    let F : ℝ → ℝ := fun alpha => gfunc E.g P.gauge (glob E.g (exponentiate E { P with alphaExp := alpha } ext s).conf)
    (∃ d < 0, HasDerivAt F d 0) ∧ ∃ a0 > 0, ∀ a, 0 < a → a < a0 → F a < gfunc E.g P.gauge (glob E.g s.conf) := by
  intro F
  have e : F = fun alpha => gfunc E.g P.gauge (glob E.g (gauge_transform_conf E.g E.ji E.jm
      (addCurrent (expDerAlphaHalf E (fourierAccelerate E (derOf E P.gauge s.conf)) alpha) s.fixer) ext)) := by
    funext alpha
    show gfunc E.g P.gauge (glob E.g (exponentiate E { P with alphaExp := alpha } ext s).conf) = _
    unfold exponentiate direction
    simp only [h1, h2, h3, if_true, if_false, Bool.false_eq_true]
  have hd := step_deriv E ok he P.gauge ext s.fixer _ s.conf hc (facc_inAlg E ok hf (der_inAlg E ok P.gauge s.conf))
  rw [← e] at hd
  have hneg : -(1 / 2) * ∑ x ∈ box E.g.L, (glob E.g (fourierAccelerate E (derOf E P.gauge s.conf)) x * (glob E.g (derOf E P.gauge s.conf) x)ᴴ).trace.re < 0 := by
    rw [Finset.sum_congr rfl fun x hx => by rw [facc_eq E ok hf _ x hx]]
    have := acc_pos ok (faccFactor E.g.L) (fun p _ => kernel_pos _ p) (glob E.g (derOf E P.gauge s.conf)) (by
      by_contra hn
      push Not at hn
      refine hq ((gqual_zero ok _ _).2 fun x hx => ?_)
      have := hn x hx
      rw [derOf_eq E ok _ _ hx] at this
      exact neg_eq_zero.1 this)
    linarith
  have h0 : F 0 = gfunc E.g P.gauge (glob E.g s.conf) := by
    rw [e]
    refine gfunc_congr E ok fun x hx => ?_
    rw [step_conf E ok ext s.fixer _ s.conf hc 0 x hx]
    simp only [mul_zero, zero_smul, he, expo_zero]
    rw [(C32_transform_group _ (fun _ => 1) (fun _ => 1) _).2]
  exact ⟨⟨_, hneg, hd⟩, by rw [← h0]; exact decreases E ok hd hneg⟩

end

/-! ### the Fourier transform of the code -/

/-- a matrix as the list of its 9 entries, the layout of an `su3` -/
def flat (f : Fld M3) : Fld (Site 9) := fun rk i k => f rk i ⟨k.val / 3, by omega⟩ ⟨k.val % 3, by omega⟩

/-- C60: the hypothesis on the Fourier transform is what `fft4d` does, where the remappings are right (see C36) -/
theorem C60_fft_ok (E : Env) (ok : E.g.Ok) (X : Nat → Nat → Coords) (hX : CoordTable E.g X) (hd : ∀ mu, DirOk E.g X mu)
    (h : ∀ (sign : Int) (norm : Bool) (f : Fld M3), Fft4d E.g X (fun _ => true) sign norm (flat f) (flat (E.fft sign norm f))) : FftOk E := by
  intro sign hs norm f p hp
  obtain ⟨rk, i, hrk, hi, hr, hc, hF⟩ := lxSite ok hp
  have hXp : X rk i = p := by
    have := hX rk hrk i hi
    rw [hc] at this
    exact (Option.some.inj this).symm
  have hrep : Nissa.Layouts.Represents E.g X (fun x (k : Fin 9) => glob E.g f x ⟨k.val / 3, by omega⟩ ⟨k.val % 3, by omega⟩) (flat f) := by
    intro r j hr' hj
    unfold flat
    rw [here_eq E ok E.jm f hr' hj (hX r hr' j hj)]
  have hres := (C36_fft4d_partial E.g ok X hX (fun _ => true) sign norm (fun mu _ => hd mu) _ _ hrep).2 _ (h sign norm f) rk i hrk hi
  rw [hXp] at hres
  have hsum : ∀ (phi : Coords → ℂ), ∑ x3 ∈ Finset.range (E.g.L 3), ∑ x2 ∈ Finset.range (E.g.L 2), ∑ x1 ∈ Finset.range (E.g.L 1), ∑ x0 ∈ Finset.range (E.g.L 0),
      phi ![x0, x1, x2, x3] = ∑ x ∈ box E.g.L, phi x := by
    intro phi
    have hb : ∑ x ∈ box E.g.L, phi x = ∑ q ∈ (Finset.range (E.g.L 3) ×ˢ Finset.range (E.g.L 2)) ×ˢ (Finset.range (E.g.L 1) ×ˢ Finset.range (E.g.L 0)),
        phi ![q.2.2, q.2.1, q.1.2, q.1.1] := by
      refine Finset.sum_bij' (i := fun x _ => ((x 3, x 2), (x 1, x 0))) (j := fun q _ => ![q.2.2, q.2.1, q.1.2, q.1.1]) ?_ ?_ ?_ ?_ ?_
      · intro x hx
        rw [mem_box] at hx
        simp [hx 0, hx 1, hx 2, hx 3]
      · intro q hq
        simp only [Finset.mem_product, Finset.mem_range] at hq
        rw [mem_box]
        intro mu
        fin_cases mu <;> simp <;> omega
      · intro x _
        funext mu
        fin_cases mu <;> rfl
      · intro q _
        rfl
      · intro x _
        congr 1
        funext mu
        fin_cases mu <;> rfl
    rw [hb, Finset.sum_product, Finset.sum_product]
    refine Finset.sum_congr rfl fun a _ => Finset.sum_congr rfl fun b _ => ?_
    rw [Finset.sum_product]
  have hdft : ∀ k : Fin 9, dftSel E.g.L sign (fun _ => true) (fun x (k : Fin 9) => glob E.g f x ⟨k.val / 3, by omega⟩ ⟨k.val % 3, by omega⟩) p k =
      ∑ x ∈ box E.g.L, phase E.g.L sign p x * glob E.g f x ⟨k.val / 3, by omega⟩ ⟨k.val % 3, by omega⟩ := by
    intro k
    rw [C36_all_directions]
    unfold dftAll
    rw [← hsum]
    refine Finset.sum_congr rfl fun a _ => Finset.sum_congr rfl fun b _ => Finset.sum_congr rfl fun c _ => Finset.sum_congr rfl fun d _ => ?_
    unfold phase
    rw [Fin.prod_univ_four]
    rfl
  rw [hF]
  ext a b
  have hk := congrFun hres ⟨a.val * 3 + b.val, by omega⟩
  unfold flat at hk
  simp only at hk
  have ea : (⟨(a.val * 3 + b.val) / 3, by omega⟩ : Fin 3) = a := by apply Fin.ext; show (a.val * 3 + b.val) / 3 = a.val; omega
  have eb : (⟨(a.val * 3 + b.val) % 3, by omega⟩ : Fin 3) = b := by apply Fin.ext; show (a.val * 3 + b.val) % 3 = b.val; omega
  rw [hdft, ea, eb] at hk
  rw [hk]
  have hv : (points E.g.L (fun _ => true) : ℂ) = E.g.glbVol := by
    unfold points Geo.glbVol volOfLx dirs
    simp
  rw [Matrix.smul_apply, Matrix.sum_apply]
  simp only [ea, eb, Matrix.smul_apply, smul_eq_mul]
  cases norm
  · simp
  · simp only [if_true]
    rw [hv, div_eq_inv_mul]

end

end Nissa.GFix
