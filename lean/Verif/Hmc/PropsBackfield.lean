import Verif.Hmc.Backfield

/-! # Properties of the background field (C46) -/

set_option linter.all false

namespace Nissa.Back
open Nissa.Lx Nissa.Sten Nissa.Gauge Nissa.Su3f Matrix

noncomputable section

/-! ### Phases -/

theorem cis_eq (a : ℝ) : cis a = Complex.exp (a * Complex.I) := by
  apply Complex.ext
  · rw [Complex.exp_ofReal_mul_I_re]; rfl
  · rw [Complex.exp_ofReal_mul_I_im]; rfl

theorem cis_zero : cis 0 = 1 := by rw [cis_eq]; simp

theorem cis_add (a b : ℝ) : cis (a + b) = cis a * cis b := by
  rw [cis_eq, cis_eq, cis_eq, ← Complex.exp_add]; push_cast; ring_nf

theorem cis_conj (a : ℝ) : (starRingEnd ℂ) (cis a) = cis (-a) := by
  apply Complex.ext
  · show Real.cos a = Real.cos (-a); rw [Real.cos_neg]
  · show -Real.sin a = Real.sin (-a); rw [Real.sin_neg]

theorem cis_mul_conj (a : ℝ) : cis a * (starRingEnd ℂ) (cis a) = 1 := by
  rw [cis_conj, ← cis_add, add_neg_cancel, cis_zero]

theorem cis_int (n : ℤ) : cis (2 * Real.pi * n) = 1 := by
  rw [cis_eq, Complex.exp_eq_one_iff]
  exact ⟨n, by push_cast; ring⟩

theorem cis_pi : cis (-Real.pi) = -1 := by
  unfold cis
  apply Complex.ext <;> simp

theorem cis_sum {ι : Type} (s : Finset ι) (f : ι → ℝ) : ∏ i ∈ s, cis (f i) = cis (∑ i ∈ s, f i) := by
  classical
  induction s using Finset.induction_on with
  | empty => simp [cis_zero]
  | insert a s ha ih => rw [Finset.prod_insert ha, Finset.sum_insert ha, ih, cis_add]

/-- sum of the angles around a square -/
def curl (g : Geo) (θ : Coords → Dir → ℝ) (x : Coords) (mu nu : Dir) : ℝ :=
  θ x mu + θ (tshift g x mu 1) nu - θ (tshift g x nu 1) mu - θ x nu

/-- the field is made of the phases of given angles -/
def HasAngle (g : Geo) (S : Nat → Nat → Nat → Quad1) (θ : Coords → Dir → ℝ) : Prop :=
  ∀ x ∈ box g.L, ∀ rho, globEo g S x rho = cis (θ x rho)

theorem square1_curl {g : Geo} (ok : g.Ok) {S : Nat → Nat → Nat → Quad1} {θ : Coords → Dir → ℝ} (h : HasAngle g S θ) {x : Coords}
    (hx : x ∈ box g.L) (mu nu : Dir) : square1 g (globEo g S) x mu nu = cis (curl g θ x mu nu) := by
  unfold square1 curl
  rw [h x hx, h x hx, h _ (tshift_mem_box ok hx mu 1), h _ (tshift_mem_box ok hx nu 1), cis_conj, cis_conj, ← cis_add, ← cis_add, ← cis_add]
  rfl

/-! ### Angles of each step -/

theorem eoCoord_eq {g : Geo} (ji : Nat) (jc : Coords) {rk p e l : Nat} {x : Coords} (h1 : loclxOfLoceo g (coordOfLx rk g.R) p e = some l)
    (h2 : glbCoordOfLoclx g (coordOfLx rk g.R) l = some x) : eoCoord g ji jc rk p e = x := by
  unfold eoCoord
  rw [h1, Option.getD_some, h2, Option.getD_some]

section
variable {g : Geo} (ok : g.Ok) (eo : EoOk g)
include ok eo

omit ok eo in
theorem angle_id : HasAngle g init_backfield_to_id (fun _ _ => 0) := by
  intro x _ rho
  rw [cis_zero]; rfl

theorem angle_im_pot {S : Nat → Nat → Nat → Quad1} {θ : Coords → Dir → ℝ} (h : HasAngle g S θ) (pot : ℝ) :
    HasAngle g (add_im_pot_to_backfield g S pot) (fun x rho => θ x rho + if rho = 0 then pot * Real.pi / g.L 0 else 0) := by
  intro x hx rho
  obtain ⟨rk, e, l, -, -, -, -, -, hF, -⟩ := eoSiteOf ok eo hx
  have h0 := h x hx
  rw [hF] at h0 ⊢
  unfold add_im_pot_to_backfield
  by_cases hr : rho = 0
  · subst hr
    simp only [Function.update_self, if_pos]
    rw [h0, ← cis_add]
  · simp only [Function.update_of_ne hr, if_neg hr, add_zero]
    exact h0 rho

theorem angle_antiperiodic {S : Nat → Nat → Nat → Quad1} {θ : Coords → Dir → ℝ} (h : HasAngle g S θ) (mu : Dir) :
    HasAngle g (add_antiperiodic_condition_to_backfield g S mu) (fun x rho => θ x rho + if rho = mu then -1 * Real.pi / g.L mu else 0) := by
  intro x hx rho
  obtain ⟨rk, e, l, -, -, -, -, -, hF, -⟩ := eoSiteOf ok eo hx
  have h0 := h x hx
  rw [hF] at h0 ⊢
  unfold add_antiperiodic_condition_to_backfield
  by_cases hr : rho = mu
  · subst hr
    simp only [Function.update_self, if_pos]
    rw [h0, ← cis_add]
  · simp only [Function.update_of_ne hr, if_neg hr, add_zero]
    exact h0 rho

theorem angle_component (ji : Nat) (jc : Coords) {S S' : Nat → Nat → Nat → Quad1} {θ : Coords → Dir → ℝ} (h : HasAngle g S θ)
    {charge em : ℝ} {q : Int} {mu nu : Dir} (h' : add_em_component g ji jc S charge em q mu nu = some S')
    {args : Geo → Coords → Dir → Dir → Dir → Int} (ha : argsOfQuantization q = some args) :
    HasAngle g S' (fun x rho => θ x rho + emPhase g charge em mu nu * args g x mu nu rho) := by
  unfold add_em_component at h'
  rw [ha] at h'
  simp only at h'
  by_cases hq : q = 2 ∧ g.L mu % 4 ≠ 0
  · rw [if_pos hq] at h'; simp at h'
  rw [if_neg hq, Option.map_some, Option.some.injEq] at h'
  subst h'
  intro x hx rho
  obtain ⟨rk, e, l, -, -, -, h1, h2, hF, -⟩ := eoSiteOf ok eo hx
  have h0 := h x hx
  rw [hF] at h0 ⊢
  simp only
  rw [eoCoord_eq ji jc h1 h2, h0, ← cis_add]

open Classical in
/-- what a component adds to the angle -/
def contrib (g : Geo) (args : Geo → Coords → Dir → Dir → Dir → Int) (charge : ℝ) (c : ℝ × Dir × Dir) (x : Coords) (rho : Dir) : ℝ :=
  if |c.1| > 1e-10 then emPhase g charge c.1 c.2.1 c.2.2 * args g x c.2.1 c.2.2 rho else 0

theorem angle_fold (ji : Nat) (jc : Coords) (charge : ℝ) (q : Int) {args : Geo → Coords → Dir → Dir → Dir → Int}
    (ha : argsOfQuantization q = some args) (l : List (ℝ × Dir × Dir)) : ∀ {S S' : Nat → Nat → Nat → Quad1} {θ : Coords → Dir → ℝ}
    (h : HasAngle g S θ) (h' : l.foldlM (fun S c => if |c.1| > 1e-10 then add_em_component g ji jc S charge c.1 q c.2.1 c.2.2 else some S) S = some S'),
    HasAngle g S' (fun x rho => θ x rho + (l.map (fun c => contrib g args charge c x rho)).sum) := by
  classical
  induction l with
  | nil =>
      intro S S' θ h h'
      simp only [List.foldlM_nil, Option.pure_def, Option.some.injEq] at h'
      subst h'
      simpa using h
  | cons c l ih =>
      intro S S' θ h h'
      rw [List.foldlM_cons] at h'
      by_cases hc : |c.1| > 1e-10
      · rw [if_pos hc] at h'
        obtain ⟨T, hT, hT'⟩ := Option.bind_eq_some_iff.1 h'
        have := ih (angle_component ok eo ji jc h hT ha) hT'
        intro x hx rho
        rw [this x hx rho]
        beta_reduce
        rw [List.map_cons, List.sum_cons]
        have e : contrib g args charge c x rho = emPhase g charge c.1 c.2.1 c.2.2 * args g x c.2.1 c.2.2 rho := by
          unfold contrib; rw [if_pos hc]
        rw [e, add_assoc]
      · rw [if_neg hc] at h'
        have := ih h h'
        intro x hx rho
        rw [this x hx rho]
        beta_reduce
        rw [List.map_cons, List.sum_cons]
        have e : contrib g args charge c x rho = 0 := by unfold contrib; rw [if_neg hc]
        rw [e, zero_add]

/-- the angles of the complete background field -/
def backAngle (g : Geo) (args : Geo → Coords → Dir → Dir → Dir → Int) (im_pot charge : ℝ) (p : EmPars) (x : Coords) (rho : Dir) : ℝ :=
  (if rho = 0 then im_pot * Real.pi / g.L 0 + -1 * Real.pi / g.L 0 else 0) +
    (if p.flag ≠ 0 then ((components p).map (fun c => contrib g args charge c x rho)).sum else 0)

theorem angle_init (ji : Nat) (jc : Coords) {im_pot charge : ℝ} {p : EmPars} {S : Nat → Nat → Nat → Quad1}
    (h : init_backfield g ji jc im_pot charge p = some S) {args : Geo → Coords → Dir → Dir → Dir → Int}
    (ha : argsOfQuantization p.flag = some args) : HasAngle g S (backAngle g args im_pot charge p) := by
  unfold init_backfield at h
  obtain ⟨T, hT, h⟩ := Option.bind_eq_some_iff.1 h
  simp only [Option.pure_def, Option.some.injEq] at h
  subst h
  have h0 := angle_im_pot ok eo (angle_id (g := g)) im_pot
  unfold add_em_field_to_backfield at hT
  by_cases hf : p.flag ≠ 0
  · rw [if_pos hf] at hT
    have := angle_antiperiodic ok eo (angle_fold ok eo ji jc charge p.flag ha (components p) h0 (by convert hT)) 0
    intro x hx rho
    rw [this x hx rho]
    unfold backAngle
    rw [if_pos hf]
    by_cases hr : rho = 0
    · simp only [if_pos hr]; congr 1; ring
    · simp only [if_neg hr]; congr 1; ring
  · rw [if_neg hf, Option.some.injEq] at hT
    subst hT
    have := angle_antiperiodic ok eo h0 0
    intro x hx rho
    rw [this x hx rho]
    unfold backAngle
    rw [if_neg hf]
    by_cases hr : rho = 0
    · simp only [if_pos hr]; congr 1; ring
    · simp only [if_neg hr]; congr 1; ring

/-- when the background field is built the quantization is a known one -/
theorem init_known (ji : Nat) (jc : Coords) {im_pot charge : ℝ} {p : EmPars} {S : Nat → Nat → Nat → Quad1}
    (h : init_backfield g ji jc im_pot charge p = some S) : HasAngle g S (backAngle g (match argsOfQuantization p.flag with
      | some a => a | none => argsNull) im_pot charge p) := by
  rcases ha : argsOfQuantization p.flag with _ | args
  · -- nothing was added
    simp only
    unfold init_backfield at h
    obtain ⟨T, hT, h⟩ := Option.bind_eq_some_iff.1 h
    simp only [Option.pure_def, Option.some.injEq] at h
    subst h
    have hf : p.flag ≠ 0 := by
      intro h0; rw [h0] at ha; simp [argsOfQuantization] at ha
    have hnone : ∀ (c : ℝ × Dir × Dir) S, add_em_component g ji jc S charge c.1 p.flag c.2.1 c.2.2 = none := by
      intro c S; unfold add_em_component; rw [ha]; simp
    unfold add_em_field_to_backfield at hT
    rw [if_pos hf] at hT
    have key : ∀ (l : List (ℝ × Dir × Dir)) S, l.foldlM (fun S c => if |c.1| > 1e-10 then add_em_component g ji jc S charge c.1 p.flag c.2.1 c.2.2 else some S) S
        = some T → T = S := by
      classical
      intro l
      induction l with
      | nil => intro S h; simp only [List.foldlM_nil, Option.pure_def, Option.some.injEq] at h; exact h.symm
      | cons c l ih =>
          intro S h
          rw [List.foldlM_cons] at h
          by_cases hc : |c.1| > 1e-10
          · rw [if_pos hc, hnone] at h; simp at h
          · rw [if_neg hc] at h; exact ih S h
    have hTS := key (components p) _ (by convert hT)
    subst hTS
    have := angle_antiperiodic ok eo (angle_im_pot ok eo (angle_id (g := g)) im_pot) 0
    intro x hx rho
    rw [this x hx rho]
    unfold backAngle
    rw [if_pos hf]
    have hz : ((components p).map (fun c => contrib g argsNull charge c x rho)).sum = 0 := by
      apply List.sum_eq_zero
      intro y hy
      obtain ⟨c, -, rfl⟩ := List.mem_map.1 hy
      unfold contrib argsNull
      split <;> simp
    rw [hz]
    by_cases hr : rho = 0
    · simp only [if_pos hr]; congr 1; ring
    · simp only [if_neg hr]; congr 1; ring
  · simp only
    exact angle_init ok eo ji jc h ha

end

/-! ### Curls of the arguments -/

/-- sum of the arguments around a square -/
def curlZ (g : Geo) (a : Coords → Dir → Int) (x : Coords) (mu nu : Dir) : Int :=
  a x mu + a (tshift g x mu 1) nu - a (tshift g x nu 1) mu - a x nu

theorem tshift_at {g : Geo} {x : Coords} (hx : x ∈ box g.L) (mu : Dir) : tshift g x mu 1 mu = if x mu + 1 = g.L mu then 0 else x mu + 1 := by
  have h := mem_box.1 hx mu
  unfold tshift
  rw [Function.update_self]
  split
  · rename_i h1
    rw [show ((x mu : Int) + 1) = g.L mu by omega, Int.emod_self]; rfl
  · rw [Int.emod_eq_of_lt (by omega) (by omega)]; omega

theorem tshift_other (g : Geo) (x : Coords) {mu nu : Dir} (h : nu ≠ mu) (d : Int) : tshift g x mu d nu = x nu := by
  unfold tshift; rw [Function.update_of_ne h]

theorem L_two {g : Geo} (ok : g.Ok) (mu : Dir) : 2 ≤ g.L mu := by
  have := ok.loc_ge mu
  unfold Geo.loc at this
  exact le_trans this (Nat.div_le_self _ _)

theorem centred_shift {g : Geo} (ok : g.Ok) {x : Coords} (hx : x ∈ box g.L) (mu : Dir) :
    centred (g.L mu) (tshift g x mu 1 mu) = centred (g.L mu) (x mu) + 1 - if x mu + 1 = g.L mu / 2 then (g.L mu : Int) else 0 := by
  have h := mem_box.1 hx mu
  have h2 := L_two ok mu
  rw [tshift_at hx mu]
  unfold centred
  split_ifs <;> omega

theorem centred_last {g : Geo} (ok : g.Ok) {x : Coords} (hx : x ∈ box g.L) (mu : Dir) :
    centred (g.L mu) (x mu) = ((g.L mu / 2 : Nat) : Int) - 1 ↔ x mu + 1 = g.L mu / 2 := by
  have h := mem_box.1 hx mu
  have h2 := L_two ok mu
  unfold centred
  split_ifs <;> omega

theorem argsL2_val (g : Geo) (c : Coords) {mu nu : Dir} (hne : mu ≠ nu) (rho : Dir) : argsOneOverL2 g c mu nu rho =
    if rho = nu then centred (g.L mu) (c mu) else if rho = mu ∧ centred (g.L mu) (c mu) = ((g.L mu / 2 : Nat) : Int) - 1 then
      -centred (g.L nu) (c nu) * g.L mu else 0 := by
  unfold argsOneOverL2
  by_cases h1 : rho = nu
  · subst h1; simp
  by_cases h2 : rho = mu
  · subst h2
    simp only [Function.update_of_ne h1, if_neg h1, true_and]
    split <;> simp
  · simp only [Function.update_of_ne h1, if_neg h1, h2, false_and, if_false]
    split <;> simp [Function.update_of_ne h2]

/-- one if the square closes both the boundaries -/
def corner (g : Geo) (x : Coords) (mu nu : Dir) : Int := if x mu + 1 = g.L mu / 2 ∧ x nu + 1 = g.L nu / 2 then 1 else 0

theorem curl_L2_plane {g : Geo} (ok : g.Ok) {x : Coords} (hx : x ∈ box g.L) {mu nu : Dir} (hne : mu ≠ nu) :
    curlZ g (fun c => argsOneOverL2 g c mu nu) x mu nu = 1 - corner g x mu nu * (g.L mu * g.L nu) := by
  have hx1 := tshift_mem_box ok hx nu 1
  unfold curlZ corner
  simp only [argsL2_val g _ hne, if_neg hne, if_true, true_and, centred_last ok hx, centred_last ok hx1, tshift_other g x hne,
    centred_shift ok hx, tshift_other g x hne.symm]
  split_ifs <;> first | (simp_all; done) | (simp_all; ring) | ring

theorem curlZ_swap (g : Geo) (a : Coords → Dir → Int) (x : Coords) (mu nu : Dir) : curlZ g a x nu mu = -curlZ g a x mu nu := by
  unfold curlZ; ring

theorem curl_L2 {g : Geo} (ok : g.Ok) {x : Coords} (hx : x ∈ box g.L) {mu nu : Dir} (hne : mu ≠ nu) (a b : Dir) :
    curlZ g (fun c => argsOneOverL2 g c mu nu) x a b =
      (if a = mu ∧ b = nu then 1 else if a = nu ∧ b = mu then -1 else 0) * (1 - corner g x mu nu * (g.L mu * g.L nu)) := by
  by_cases h1 : a = mu ∧ b = nu
  · rw [if_pos h1, h1.1, h1.2, curl_L2_plane ok hx hne, one_mul]
  rw [if_neg h1]
  by_cases h2 : a = nu ∧ b = mu
  · rw [if_pos h2, h2.1, h2.2, curlZ_swap, curl_L2_plane ok hx hne]; ring
  rw [if_neg h2, zero_mul]
  unfold curlZ
  by_cases hab : a = b
  · subst hab; ring
  simp only [argsL2_val g _ hne]
  by_cases ha1 : a = nu
  · subst ha1
    have hb1 : b ≠ mu := fun h => h2 ⟨rfl, h⟩
    simp only [if_true, if_neg (Ne.symm hab), hb1, false_and, if_false, tshift_other g x (Ne.symm hb1)]
    ring
  by_cases hb2 : b = nu
  · subst hb2
    have ha2 : a ≠ mu := fun h => h1 ⟨h, rfl⟩
    simp only [if_true, if_neg hab, ha2, false_and, if_false, tshift_other g x (Ne.symm ha2)]
    ring
  simp only [if_neg ha1, if_neg hb2]
  by_cases ha3 : a = mu
  · subst ha3
    simp only [true_and, Ne.symm hab, false_and, if_false, tshift_other g x hab, tshift_other g x (Ne.symm hb2)]
    ring
  by_cases hb3 : b = mu
  · subst hb3
    simp only [true_and, hab, false_and, if_false, tshift_other g x (Ne.symm hab), tshift_other g x (Ne.symm ha1)]
    ring
  simp [ha3, hb3]

/-- +1 on the first half of the lattice, -1 on the second -/
def halfSign (g : Geo) (x : Coords) (mu : Dir) : Int := if x mu < g.L mu / 2 then 1 else -1

theorem argsHH_val (g : Geo) (c : Coords) (mu nu rho : Dir) : argsHalfHalf g c mu nu rho =
    if rho = nu then (if c mu ≤ g.L mu / 2 then (c mu : Int) - (g.L mu / 4 : Nat) else ((3 * g.L mu / 4 : Nat) : Int) - c mu) else 0 := by
  unfold argsHalfHalf
  by_cases h : rho = nu
  · subst h; simp
  · simp [h]

theorem curl_HH_plane {g : Geo} (ok : g.Ok) {x : Coords} (hx : x ∈ box g.L) {mu nu : Dir} (hne : mu ≠ nu) (h4 : g.L mu % 4 = 0) :
    curlZ g (fun c => argsHalfHalf g c mu nu) x mu nu = halfSign g x mu := by
  unfold curlZ halfSign
  simp only [argsHH_val, if_neg hne, if_true, tshift_at hx mu]
  have h := mem_box.1 hx mu
  split_ifs <;> omega

theorem curl_HH {g : Geo} (ok : g.Ok) {x : Coords} (hx : x ∈ box g.L) {mu nu : Dir} (hne : mu ≠ nu) (h4 : g.L mu % 4 = 0) (a b : Dir) :
    curlZ g (fun c => argsHalfHalf g c mu nu) x a b =
      (if a = mu ∧ b = nu then 1 else if a = nu ∧ b = mu then -1 else 0) * halfSign g x mu := by
  by_cases h1 : a = mu ∧ b = nu
  · rw [if_pos h1, h1.1, h1.2, curl_HH_plane ok hx hne h4, one_mul]
  rw [if_neg h1]
  by_cases h2 : a = nu ∧ b = mu
  · rw [if_pos h2, h2.1, h2.2, curlZ_swap, curl_HH_plane ok hx hne h4]; ring
  rw [if_neg h2, zero_mul]
  unfold curlZ
  simp only [argsHH_val]
  by_cases hab : a = b
  · subst hab; ring
  by_cases ha1 : a = nu
  · subst ha1
    have hb1 : b ≠ mu := fun h => h2 ⟨rfl, h⟩
    simp only [if_true, if_neg (Ne.symm hab), tshift_other g x (Ne.symm hb1)]
    ring
  by_cases hb2 : b = nu
  · subst hb2
    have ha2 : a ≠ mu := fun h => h1 ⟨h, rfl⟩
    simp only [if_true, if_neg hab, tshift_other g x (Ne.symm ha2)]
    ring
  simp [ha1, hb2]


/-! ### The plaquettes of the background field -/

open Classical in
theorem curl_backAngle (g : Geo) (args : Geo → Coords → Dir → Dir → Dir → Int) (im_pot charge : ℝ) (p : EmPars) (x : Coords) (a b : Dir) :
    curl g (backAngle g args im_pot charge p) x a b = if p.flag ≠ 0 then ((components p).map (fun c => if |c.1| > 1e-10 then
      emPhase g charge c.1 c.2.1 c.2.2 * (curlZ g (fun y => args g y c.2.1 c.2.2) x a b : ℝ) else 0)).sum else 0 := by
  unfold curl backAngle
  by_cases hf : p.flag ≠ 0
  · simp only [if_pos hf]
    have key : ∀ l : List (ℝ × Dir × Dir), (l.map (fun c => if |c.1| > 1e-10 then
        emPhase g charge c.1 c.2.1 c.2.2 * (curlZ g (fun y => args g y c.2.1 c.2.2) x a b : ℝ) else 0)).sum =
        (l.map (fun c => contrib g args charge c x a)).sum + (l.map (fun c => contrib g args charge c (tshift g x a 1) b)).sum -
          (l.map (fun c => contrib g args charge c (tshift g x b 1) a)).sum - (l.map (fun c => contrib g args charge c x b)).sum := by
      intro l
      induction l with
      | nil => simp
      | cons c l ih =>
          simp only [List.map_cons, List.sum_cons]
          rw [ih]
          unfold contrib curlZ
          by_cases hc : |c.1| > 1e-10
          · simp only [if_pos hc]; push_cast; ring
          · simp only [if_neg hc]; ring
    rw [key]; ring
  · simp only [if_neg hf]; ring

/-- the antisymmetric tensor with given components -/
def tensor (w : ℝ × Dir × Dir → ℝ) (p : EmPars) (mu nu : Dir) : ℝ :=
  (![![0, w (p.E 0, 0, 1), w (p.E 1, 0, 2), w (p.E 2, 0, 3)], ![-w (p.E 0, 0, 1), 0, w (p.B 2, 1, 2), -w (p.B 1, 3, 1)],
     ![-w (p.E 1, 0, 2), -w (p.B 2, 1, 2), 0, w (p.B 0, 2, 3)], ![-w (p.E 2, 0, 3), w (p.B 1, 3, 1), -w (p.B 0, 2, 3), 0]] : Fin 4 → Fin 4 → ℝ) mu nu

theorem sum_tensor (w : ℝ × Dir × Dir → ℝ) (p : EmPars) (a b : Dir) : ((components p).map (fun c =>
    (if a = c.2.1 ∧ b = c.2.2 then (1 : ℝ) else if a = c.2.2 ∧ b = c.2.1 then -1 else 0) * w c)).sum = tensor w p a b := by
  unfold components tensor
  fin_cases a <;> fin_cases b <;> simp [List.sum_cons]

open Classical in
theorem strength_tensor (p : EmPars) (a b : Dir) : strength p a b = tensor (fun c => if p.flag ≠ 0 ∧ |c.1| > 1e-10 then c.1 else 0) p a b := rfl

/-- the curl through the tensor -/
theorem curl_tensor {g : Geo} {args : Geo → Coords → Dir → Dir → Dir → Int} (im_pot charge : ℝ) (p : EmPars) (x : Coords)
    (k : ℝ × Dir × Dir → ℝ)
    (hk : ∀ c ∈ components p, |c.1| > 1e-10 → p.flag ≠ 0 → ∀ a b, (curlZ g (fun y => args g y c.2.1 c.2.2) x a b : ℝ) =
      (if a = c.2.1 ∧ b = c.2.2 then (1 : ℝ) else if a = c.2.2 ∧ b = c.2.1 then -1 else 0) * k c) (a b : Dir) :
    curl g (backAngle g args im_pot charge p) x a b =
      tensor (fun c => open Classical in if p.flag ≠ 0 ∧ |c.1| > 1e-10 then emPhase g charge c.1 c.2.1 c.2.2 * k c else 0) p a b := by
  classical
  rw [curl_backAngle, ← sum_tensor]
  by_cases hf : p.flag ≠ 0
  · rw [if_pos hf]
    congr 1
    refine List.map_congr_left fun c hc => ?_
    by_cases h : |c.1| > 1e-10
    · have e : p.flag ≠ 0 ∧ |c.1| > 1e-10 := ⟨hf, h⟩
      rw [if_pos h, if_pos e, hk c hc h hf]; ring
    · have e : ¬(p.flag ≠ 0 ∧ |c.1| > 1e-10) := fun hh => h hh.2
      rw [if_neg h, if_neg e, mul_zero]
  · rw [if_neg hf]
    symm
    apply List.sum_eq_zero
    intro y hy
    obtain ⟨c, -, rfl⟩ := List.mem_map.1 hy
    have e : ¬(p.flag ≠ 0 ∧ |c.1| > 1e-10) := fun hh => hf hh.1
    rw [if_neg e, mul_zero]

theorem cis_tensor (w v : ℝ × Dir × Dir → ℝ) (p : EmPars) (h : ∀ c ∈ components p, cis (w c) = cis (v c)) (a b : Dir) :
    cis (tensor w p a b) = cis (tensor v p a b) := by
  have h' : ∀ c ∈ components p, cis (-w c) = cis (-v c) := by
    intro c hc; rw [← cis_conj, ← cis_conj, h c hc]
  unfold components at h h'
  unfold tensor
  simp only [List.forall_mem_cons] at h h'
  obtain ⟨a1, a2, a3, a4, a5, a6, -⟩ := h
  obtain ⟨b1, b2, b3, b4, b5, b6, -⟩ := h'
  fin_cases a <;> fin_cases b <;> first | rfl | assumption

theorem tensor_mul (w : ℝ × Dir × Dir → ℝ) (m : Dir → Dir → ℝ) (hm : ∀ a b, m a b = m b a) (p : EmPars) (a b : Dir) :
    tensor w p a b * m a b = tensor (fun c => w c * m c.2.1 c.2.2) p a b := by
  unfold tensor
  fin_cases a <;> fin_cases b <;> simp [hm]
  all_goals first | (left; exact hm _ _) | skip

theorem components_ne (p : EmPars) : ∀ c ∈ components p, c.2.1 ≠ c.2.2 := by
  unfold components
  simp only [List.forall_mem_cons]
  refine ⟨?_, ?_, ?_, ?_, ?_, ?_, ?_⟩ <;> simp


theorem emPhase_eq (g : Geo) (charge em : ℝ) (mu nu : Dir) : emPhase g charge em mu nu = 2 * Real.pi * charge * em / (g.L mu * g.L nu) := by
  unfold emPhase; rw [div_div]; ring

section
variable {g : Geo} (ok : g.Ok) (eo : EoOk g)
include ok eo

/-- C46: with the 1/L2 quantization the background field is uniform: the product of the phases around each square of the plane
`(mu,nu)`, wherever it is, also across the boundaries of the lattice and of the ranks, is the exponential of the charge times the
strength requested for that plane divided by the area of the plane, if the product of charge and strength is an integer; the
imaginary chemical potential and the antiperiodicity do not contribute. -/
theorem C46_uniform_field (ji : Nat) (jc : Coords) (im_pot charge : ℝ) (p : EmPars) (hq : p.flag = 1)
    (hint : ∀ mu nu, ∃ n : ℤ, charge * strength p mu nu = n) {S : Nat → Nat → Nat → Quad1}
    (h : init_backfield g ji jc im_pot charge p = some S) (x : Coords) (hx : x ∈ box g.L) (mu nu : Dir) :
    square1 g (globEo g S) x mu nu = cis (2 * Real.pi * charge * strength p mu nu / (g.L mu * g.L nu)) := by
  classical
  have ha : argsOfQuantization p.flag = some argsOneOverL2 := by rw [hq]; rfl
  have hf : p.flag ≠ 0 := by rw [hq]; decide
  rw [square1_curl ok (angle_init ok eo ji jc h ha) hx,
    curl_tensor im_pot charge p x (fun c => 1 - corner g x c.2.1 c.2.2 * (g.L c.2.1 * g.L c.2.2)) ?_ mu nu]
  · rw [show 2 * Real.pi * charge * strength p mu nu / (g.L mu * g.L nu) = strength p mu nu * (2 * Real.pi * charge / (g.L mu * g.L nu)) by ring,
      strength_tensor, tensor_mul _ (fun a b => 2 * Real.pi * charge / (g.L a * g.L b)) (fun a b => by ring)]
    apply cis_tensor
    intro c hc
    by_cases h1 : |c.1| > 1e-10
    · have e : p.flag ≠ 0 ∧ |c.1| > 1e-10 := ⟨hf, h1⟩
      simp only [if_pos e]
      have hs : strength p c.2.1 c.2.2 = c.1 := by
        unfold components at hc
        unfold strength
        simp only [List.mem_cons, List.not_mem_nil, or_false] at hc
        rcases hc with rfl | rfl | rfl | rfl | rfl | rfl <;>
          (simp [hf]; intro hh; exact absurd h1 (not_lt.2 hh))
      obtain ⟨n, hn⟩ := hint c.2.1 c.2.2
      rw [hs] at hn
      have hL1 : (g.L c.2.1 : ℝ) ≠ 0 := by have := L_two ok c.2.1; positivity
      have hL2 : (g.L c.2.2 : ℝ) ≠ 0 := by have := L_two ok c.2.2; positivity
      have : emPhase g charge c.1 c.2.1 c.2.2 * (1 - corner g x c.2.1 c.2.2 * (g.L c.2.1 * g.L c.2.2)) =
          c.1 * (2 * Real.pi * charge / (g.L c.2.1 * g.L c.2.2)) + 2 * Real.pi * ((-(n * corner g x c.2.1 c.2.2) : ℤ) : ℝ) := by
        rw [emPhase_eq]
        push_cast
        rw [← hn]
        field_simp
        ring
      rw [this, cis_add, cis_int, mul_one]
    · have e : ¬(p.flag ≠ 0 ∧ |c.1| > 1e-10) := fun hh => h1 hh.2
      simp only [if_neg e, zero_mul]
  · intro c hc _ _ a b
    rw [curl_L2 ok hx (components_ne p c hc)]
    push_cast
    rfl

/-- C46 (what happens when the product is not an integer, which the program does not check): one square per plane has a different phase. -/
theorem C46_defect (ji : Nat) (jc : Coords) (charge em : ℝ) (q : Int) (hq : q = 1) (mu nu : Dir) (hne : mu ≠ nu) {S : Nat → Nat → Nat → Quad1}
    (h : add_em_component g ji jc init_backfield_to_id charge em q mu nu = some S) (x : Coords) (hx : x ∈ box g.L) :
    square1 g (globEo g S) x mu nu = cis (2 * Real.pi * charge * em / (g.L mu * g.L nu)) *
      (if x mu + 1 = g.L mu / 2 ∧ x nu + 1 = g.L nu / 2 then cis (-(2 * Real.pi * (charge * em))) else 1) := by
  have ha : argsOfQuantization q = some argsOneOverL2 := by rw [hq]; rfl
  rw [square1_curl ok (angle_component ok eo ji jc (angle_id (g := g)) h ha) hx]
  have hc := curl_L2_plane ok hx hne
  have : curl g (fun x rho => 0 + emPhase g charge em mu nu * (argsOneOverL2 g x mu nu rho : ℝ)) x mu nu =
      emPhase g charge em mu nu * ((curlZ g (fun c => argsOneOverL2 g c mu nu) x mu nu : ℤ) : ℝ) := by
    unfold curl curlZ; push_cast; ring
  have hL1 : (g.L mu : ℝ) ≠ 0 := by have := L_two ok mu; positivity
  have hL2 : (g.L nu : ℝ) ≠ 0 := by have := L_two ok nu; positivity
  rw [this, hc, emPhase_eq]
  unfold corner
  by_cases hcor : x mu + 1 = g.L mu / 2 ∧ x nu + 1 = g.L nu / 2
  · rw [if_pos hcor, if_pos hcor, ← cis_add]
    congr 1
    push_cast
    field_simp
    ring
  · rw [if_neg hcor, if_neg hcor, mul_one]
    congr 1
    push_cast
    ring

open Classical in
/-- success of the loop on the components -/
theorem fold_some (ji : Nat) (jc : Coords) (charge : ℝ) (q : Int) (l : List (ℝ × Dir × Dir)) : ∀ S,
    (l.foldlM (fun S c => if |c.1| > 1e-10 then add_em_component g ji jc S charge c.1 q c.2.1 c.2.2 else some S) S) = none ↔
    ∃ c ∈ l, |c.1| > 1e-10 ∧ ((q = 2 ∧ g.L c.2.1 % 4 ≠ 0) ∨ argsOfQuantization q = none) := by
  have hcomp : ∀ (c : ℝ × Dir × Dir) S, add_em_component g ji jc S charge c.1 q c.2.1 c.2.2 = none ↔
      ((q = 2 ∧ g.L c.2.1 % 4 ≠ 0) ∨ argsOfQuantization q = none) := by
    intro c S
    unfold add_em_component
    by_cases h : q = 2 ∧ g.L c.2.1 % 4 ≠ 0
    · simp [h]
    · simp only [if_neg h, Option.map_eq_none_iff]
      tauto
  induction l with
  | nil => intro S; simp
  | cons c l ih =>
      intro S
      rw [List.foldlM_cons]
      by_cases hc : |c.1| > 1e-10
      · rw [if_pos hc]
        rcases hT : add_em_component g ji jc S charge c.1 q c.2.1 c.2.2 with _ | T
        · have := (hcomp c S).1 hT
          simp only [List.mem_cons, exists_eq_or_imp]
          constructor
          · intro _; exact .inl ⟨hc, this⟩
          · intro _; rfl
        · have hno : ¬((q = 2 ∧ g.L c.2.1 % 4 ≠ 0) ∨ argsOfQuantization q = none) := by
            rw [← hcomp c S, hT]; simp
          show List.foldlM _ T l = none ↔ _
          rw [ih T]
          simp only [List.mem_cons, exists_eq_or_imp]
          constructor
          · intro h; exact .inr h
          · rintro (h | h)
            · exact absurd h.2 hno
            · exact h
      · rw [if_neg hc]
        show List.foldlM _ S l = none ↔ _
        rw [ih S]
        simp only [List.mem_cons, exists_eq_or_imp]
        constructor
        · intro h; exact .inr h
        · rintro (h | h)
          · exact absurd h.1 hc
          · exact h

/-- C46: exactly when the background field cannot be built: some component is present and either its quantization is unknown, or
half-half on a lattice whose size along the first direction of the plane is not multiple of four. -/
theorem C46_abort_iff (ji : Nat) (jc : Coords) (im_pot charge : ℝ) (p : EmPars) :
    init_backfield g ji jc im_pot charge p = none ↔
      p.flag ≠ 0 ∧ ∃ c ∈ components p, |c.1| > 1e-10 ∧ ((p.flag = 2 ∧ g.L c.2.1 % 4 ≠ 0) ∨ (p.flag ≠ 1 ∧ p.flag ≠ 2)) := by
  unfold init_backfield
  rw [show ∀ o : Option (Nat → Nat → Nat → Quad1), (do let S ← o; return add_antiperiodic_condition_to_backfield g S 0 : Option _) = none ↔ o = none from
    fun o => by cases o <;> simp]
  unfold add_em_field_to_backfield
  by_cases hf : p.flag ≠ 0
  · have hn : argsOfQuantization p.flag = none ↔ (p.flag ≠ 1 ∧ p.flag ≠ 2) := by
      unfold argsOfQuantization
      rw [if_neg hf]
      by_cases h1 : p.flag = 1
      · simp [h1]
      by_cases h2 : p.flag = 2
      · simp [h2]
      simp [h1, h2]
    rw [if_pos hf, fold_some ok eo, hn]
    constructor
    · intro h; exact ⟨hf, h⟩
    · intro h; exact h.2
  · rw [if_neg hf]
    simp only [ne_eq, not_not] at hf
    simp [hf]

/-- C46: with the half-half quantization the field has the requested strength on the half of the lattice with the smaller
coordinates along the first direction of the plane, and the opposite on the other half, whatever the strength. -/
theorem C46_half_half (ji : Nat) (jc : Coords) (im_pot charge : ℝ) (p : EmPars) (hq : p.flag = 2) {S : Nat → Nat → Nat → Quad1}
    (h : init_backfield g ji jc im_pot charge p = some S) (x : Coords) (hx : x ∈ box g.L) (mu nu : Dir)
    (hpl : (mu, nu) ∈ ([(0, 1), (0, 2), (0, 3), (2, 3), (3, 1), (1, 2)] : List (Dir × Dir))) :
    square1 g (globEo g S) x mu nu =
      cis ((if x mu < g.L mu / 2 then 1 else -1) * (2 * Real.pi * charge * strength p mu nu / (g.L mu * g.L nu))) := by
  classical
  have ha : argsOfQuantization p.flag = some argsHalfHalf := by rw [hq]; rfl
  have hf : p.flag ≠ 0 := by rw [hq]; decide
  have h4 : ∀ c ∈ components p, |c.1| > 1e-10 → g.L c.2.1 % 4 = 0 := by
    intro c hc h1
    by_contra hn
    have := (C46_abort_iff ok eo ji jc im_pot charge p).2 ⟨hf, c, hc, h1, .inl ⟨hq, hn⟩⟩
    rw [h] at this; cases this
  rw [square1_curl ok (angle_init ok eo ji jc h ha) hx, curl_tensor im_pot charge p x (fun c => (halfSign g x c.2.1 : ℝ)) ?_ mu nu]
  · congr 1
    rw [strength_tensor]
    unfold halfSign tensor
    simp only [emPhase_eq]
    simp only [List.mem_cons, List.not_mem_nil, or_false, Prod.mk.injEq] at hpl
    rcases hpl with ⟨rfl, rfl⟩ | ⟨rfl, rfl⟩ | ⟨rfl, rfl⟩ | ⟨rfl, rfl⟩ | ⟨rfl, rfl⟩ | ⟨rfl, rfl⟩ <;> simp <;> split_ifs <;> simp <;> ring
  · intro c hc h1 _ a b
    rw [curl_HH ok hx (components_ne p c hc) (h4 c hc h1)]
    push_cast
    unfold halfSign
    split_ifs <;> simp

end

end

end Nissa.Back
