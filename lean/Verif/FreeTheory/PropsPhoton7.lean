import Verif.FreeTheory.PropsPhoton6
import Verif.FreeTheory.PropsQuark4
import Mathlib.Analysis.SpecialFunctions.Trigonometric.Bounds
import Mathlib.Analysis.Convex.SpecificFunctions.Deriv

/-! # C55: the field equations and the gauge conditions in position space, with periodic boundary conditions -/

set_option linter.all false

namespace Nissa.Phot
open Nissa.Lx Nissa.Free Nissa.Fft Nissa.Gauge Nissa.Sten Nissa.Layouts Matrix Complex

/-- no phase at the boundary -/
def per : Dir → ℝ := fun _ => 0

theorem wave_per (g : Geo) (n x : Coords) (mu : Dir) : wave g.L per 1 n x mu = planeWave g n x * Complex.exp (I * ((Real.pi * n mu / g.L mu : ℝ) : ℂ)) := by
  unfold wave planeWave arg lattMom per
  rw [← Complex.exp_sum, ← Complex.exp_add]
  congr 1
  simp only [Fin.sum_univ_four]
  fin_cases mu <;> (simp; ring)

/-- shift of a plane wave -/
theorem wave_per_shift (g : Geo) (ok : g.Ok) (n x : Coords) (mu nu : Dir) (d : Int) :
    wave g.L per 1 n (tshift g x nu d) mu = Complex.exp (I * ((lattMom (n nu) 0 (g.L nu) * d : ℝ) : ℂ)) * wave g.L per 1 n x mu := by
  rw [wave_per, wave_per, wave_shift ok]
  rw [show (2 * Real.pi * I * ((n nu : ℂ) * (d : ℂ) / (g.L nu : ℂ))) = I * ((lattMom (n nu) 0 (g.L nu) * d : ℝ) : ℂ) from by unfold lattMom; push_cast; ring]
  ring

theorem two_sin (a : ℝ) : Complex.exp (I * (a : ℂ)) - Complex.exp (-(I * (a : ℂ))) = I * ((2 * Real.sin a : ℝ) : ℂ) := by
  have h1 : I * (a : ℂ) = (a : ℂ) * I := mul_comm _ _
  rw [h1, Complex.exp_mul_I, ← neg_mul, Complex.exp_mul_I, Complex.cos_neg, Complex.sin_neg]
  push_cast; ring

/-- the backward derivative of a plane wave in the middle of the links -/
theorem wave_div (g : Geo) (ok : g.Ok) (n x : Coords) (mu : Dir) :
    wave g.L per 1 n x mu - wave g.L per 1 n (tshift g x mu (-1)) mu = planeWave g n x * (I * (khat g.L per n mu : ℂ)) := by
  rw [wave_per_shift g ok, wave_per]
  have e : khat g.L per n mu = 2 * Real.sin (Real.pi * n mu / g.L mu) := by
    unfold khat lattMom per; congr 2; ring
  rw [e, ← two_sin]
  have : Complex.exp (I * ((lattMom (n mu) 0 (g.L mu) * ((-1 : Int) : ℝ) : ℝ) : ℂ)) * Complex.exp (I * ((Real.pi * n mu / g.L mu : ℝ) : ℂ)) =
      Complex.exp (-(I * ((Real.pi * n mu / g.L mu : ℝ) : ℂ))) := by
    rw [← Complex.exp_add]; congr 1; unfold lattMom; push_cast; ring
  rw [← this]; ring

/-- second derivative of a plane wave -/
theorem wave_lap (g : Geo) (ok : g.Ok) (n x : Coords) (mu nu : Dir) :
    2 * wave g.L per 1 n x mu - wave g.L per 1 n (tshift g x nu 1) mu - wave g.L per 1 n (tshift g x nu (-1)) mu = ((khat g.L per n nu ^ 2 : ℝ) : ℂ) * wave g.L per 1 n x mu := by
  rw [wave_per_shift g ok, wave_per_shift g ok]
  have e : khat g.L per n nu ^ 2 = 2 - 2 * Real.cos (lattMom (n nu) 0 (g.L nu)) := by
    have h1 := Real.cos_sq_add_sin_sq (lattMom (n nu) 0 (g.L nu) / 2)
    have h2 := Real.cos_two_mul (lattMom (n nu) 0 (g.L nu) / 2)
    rw [mul_div_cancel₀ _ (two_ne_zero)] at h2
    unfold khat per
    rw [h2]; nlinarith
  have c : Complex.exp (I * ((lattMom (n nu) 0 (g.L nu) * ((1 : Int) : ℝ) : ℝ) : ℂ)) + Complex.exp (I * ((lattMom (n nu) 0 (g.L nu) * ((-1 : Int) : ℝ) : ℝ) : ℂ)) =
      ((2 * Real.cos (lattMom (n nu) 0 (g.L nu)) : ℝ) : ℂ) := by
    have h1 : I * ((lattMom (n nu) 0 (g.L nu) * ((1 : Int) : ℝ) : ℝ) : ℂ) = (lattMom (n nu) 0 (g.L nu) : ℂ) * I := by push_cast; ring
    have h2 : I * ((lattMom (n nu) 0 (g.L nu) * ((-1 : Int) : ℝ) : ℝ) : ℂ) = -(lattMom (n nu) 0 (g.L nu) : ℂ) * I := by push_cast; ring
    rw [h1, h2, Complex.exp_mul_I, Complex.exp_mul_I, Complex.cos_neg, Complex.sin_neg]
    push_cast; ring
  rw [e]
  have := congrArg (fun z => z * wave g.L per 1 n x mu) c
  push_cast at this ⊢
  linear_combination -this

/-- the derivative of a field diagonal in momentum space -/
theorem conv_div (g : Geo) (ok : g.Ok) (M : Coords → Matrix (Fin 4) (Fin 4) ℂ) (psi : Coords → Site 4) (S : Finset Dir)
    (hM : ∀ n ∈ box g.L, ∀ nu, ∑ mu ∈ S, (khat g.L per n mu : ℂ) * M n mu nu = 0) (x : Coords) :
    ∑ mu ∈ S, (conv g.L per M psi x mu - conv g.L per M psi (tshift g x mu (-1)) mu) = 0 := by
  have e : ∀ mu, conv g.L per M psi x mu - conv g.L per M psi (tshift g x mu (-1)) mu =
      ∑ n ∈ box g.L, planeWave g n x * I * ∑ nu, ((khat g.L per n mu : ℂ) * M n mu nu) * ((1 / (vol g.L : ℂ)) * ∑ y ∈ box g.L, wave g.L per (-1) n y nu * psi y nu) := fun mu => by
    unfold conv
    rw [← Finset.sum_sub_distrib]
    refine Finset.sum_congr rfl fun n _ => ?_
    rw [← sub_mul, wave_div g ok]
    simp only [Fin.sum_univ_four]
    ring
  simp only [e]
  rw [Finset.sum_comm]
  refine Finset.sum_eq_zero fun n hn => ?_
  rw [← Finset.mul_sum, Finset.sum_comm]
  simp only [← Finset.sum_mul]
  rw [Finset.sum_eq_zero fun nu _ => by rw [hM n hn nu, zero_mul], mul_zero]

/-- C55: in Landau gauge, for each `c1` not positive, the field has vanishing backward divergence -/
theorem C55_landau_position_partial (g : Geo) (ok : g.Ok) (X : Nat → Nat → Coords) (hX : CoordTable g X) (hd : ∀ mu, DirOk g X mu) (gl : GaugeInfo) (hb : gl.bc = fun _ => 0)
    (hc : gl.c1 ≤ 0) (hg : gl.gauge = .landau) (inp out : Nat → Nat → Site 4) (h : MulByProp g X gl inp out) :
    ∃ phi : Coords → Site 4, Layouts.Represents g X phi out ∧ ∀ x ∈ box g.L, ∑ mu, (phi x mu - phi (tshift g x mu (-1)) mu) = 0 := by
  have hP : ∀ n, ∃ D : R4, propagator g gl n = some (fun mu nu => ((D mu nu / g.glbVol : ℝ) : ℂ)) ∧ Dᵀ = D ∧ D *ᵥ khat g.L gl.bc n = 0 := fun n => by
    have zero : propagator g gl n = some 0 → ∃ D : R4, propagator g gl n = some (fun mu nu => ((D mu nu / g.glbVol : ℝ) : ℂ)) ∧ Dᵀ = D ∧ D *ᵥ khat g.L gl.bc n = 0 := fun h => by
      refine ⟨0, ?_, by simp, by simp⟩
      rw [h]; congr 1; funext mu nu; simp
    by_cases hn : isNonZeroMode gl n = true
    · by_cases hk : 1e-14 ≤ ksq g.L gl.bc n
      · obtain ⟨D, e, h1, h2, -⟩ := C55_landau g gl n hg hc hn hk
        refine ⟨D, e, h1, ?_⟩
        have hp : 0 < ksq g.L gl.bc n := lt_of_lt_of_le (by norm_num) hk
        have : khat g.L gl.bc n = ksq g.L gl.bc n • (fun mu => khat g.L gl.bc n mu / ksq g.L gl.bc n) := by
          funext mu; rw [Pi.smul_apply, smul_eq_mul]; field_simp
        rw [this, Matrix.mulVec_smul, h2, smul_zero]
      · exact zero ((C55_zero_mode g gl n).2.2 (by rw [hg]; decide) (not_le.1 hk))
    · exact zero ((C55_zero_mode g gl n).2.1 (by simpa using hn))
  choose D hD using hP
  have hrep : Layouts.Represents g X (fun c => inp (getLoclxAndRankOfCoords g c).1 (getLoclxAndRankOfCoords g c).2) inp := by
    intro r i hr hi
    simp only [(coordTable_of g ok X hX r i hr hi).2]
  have hr := mul_conv g ok X hX hd gl _ (fun n _ => (hD n).1) _ inp out hrep h
  rw [hb] at hr
  refine ⟨_, hr, fun x _ => conv_div g ok _ _ Finset.univ (fun n _ nu => ?_) x⟩
  have h0 := congrFun (hD n).2.2 nu
  rw [hb] at h0
  simp only [mulVec, dotProduct, Pi.zero_apply] at h0
  have e : ∀ mu, (khat g.L per n mu : ℂ) * (((vol g.L : ℂ) • (fun mu nu => ((D n mu nu / g.glbVol : ℝ) : ℂ)) : Matrix (Fin 4) (Fin 4) ℂ)) mu nu =
      ((vol g.L : ℂ) / g.glbVol) * ((D n nu mu * khat g.L per n mu : ℝ) : ℂ) := fun mu => by
    have ht : D n mu nu = D n nu mu := by conv_lhs => rw [← (hD n).2.1, Matrix.transpose_apply]
    show (khat g.L per n mu : ℂ) * ((vol g.L : ℂ) * ((D n mu nu / g.glbVol : ℝ) : ℂ)) = _
    rw [ht]; push_cast; ring
  refine Eq.trans (Finset.sum_congr rfl fun mu _ => e mu) ?_
  rw [← Finset.mul_sum, ← Complex.ofReal_sum]
  have h0' : ∑ i, D n nu i * khat g.L per n i = 0 := h0
  rw [h0']; simp

/-- C55: in Coulomb gauge the spatial divergence vanishes -/
theorem C55_coulomb_position_partial (g : Geo) (ok : g.Ok) (X : Nat → Nat → Coords) (hX : CoordTable g X) (hd : ∀ mu, DirOk g X mu) (gl : GaugeInfo) (hb : gl.bc = fun _ => 0)
    (hc : gl.c1 = 0) (hg : gl.gauge = .coulomb) (inp out : Nat → Nat → Site 4) (h : MulByProp g X gl inp out) :
    ∃ phi : Coords → Site 4, Layouts.Represents g X phi out ∧ ∀ x ∈ box g.L, ∑ mu ∈ {1, 2, 3}, (phi x mu - phi (tshift g x mu (-1)) mu) = 0 := by
  have hP : ∀ n, ∃ D : R4, propagator g gl n = some (fun mu nu => ((D mu nu / g.glbVol : ℝ) : ℂ)) ∧ Dᵀ = D ∧ D *ᵥ (fun mu => if mu = 0 then 0 else khat g.L gl.bc n mu) = 0 := fun n => by
    have zero : propagator g gl n = some 0 → ∃ D : R4, propagator g gl n = some (fun mu nu => ((D mu nu / g.glbVol : ℝ) : ℂ)) ∧ Dᵀ = D ∧ D *ᵥ (fun mu => if mu = 0 then 0 else khat g.L gl.bc n mu) = 0 := fun h => by
      refine ⟨0, ?_, by simp, by simp⟩
      rw [h]; congr 1; funext mu nu; simp
    by_cases hn : isNonZeroMode gl n = true
    · obtain ⟨-, h1, h2⟩ := C55_coulomb g gl n hg hn
      by_cases hk : 1e-14 < kspat g.L gl.bc n
      · obtain ⟨D, e, f1, f2, -⟩ := h1 hc hk
        refine ⟨D, e, f1, ?_⟩
        have hp : 0 < kspat g.L gl.bc n := lt_trans (by norm_num) hk
        have : (fun mu => if mu = 0 then 0 else khat g.L gl.bc n mu) = kspat g.L gl.bc n • (fun mu => if mu = 0 then 0 else khat g.L gl.bc n mu / kspat g.L gl.bc n) := by
          funext mu; rw [Pi.smul_apply, smul_eq_mul]
          split
          · simp
          · field_simp
        rw [this, Matrix.mulVec_smul, f2, smul_zero]
      · exact zero (h2 hc (not_lt.1 hk))
    · exact zero ((C55_zero_mode g gl n).2.1 (by simpa using hn))
  choose D hD using hP
  have hrep : Layouts.Represents g X (fun c => inp (getLoclxAndRankOfCoords g c).1 (getLoclxAndRankOfCoords g c).2) inp := by
    intro r i hr hi
    simp only [(coordTable_of g ok X hX r i hr hi).2]
  have hr := mul_conv g ok X hX hd gl _ (fun n _ => (hD n).1) _ inp out hrep h
  rw [hb] at hr
  refine ⟨_, hr, fun x _ => conv_div g ok _ _ {1, 2, 3} (fun n _ nu => ?_) x⟩
  have h0 := congrFun (hD n).2.2 nu
  rw [hb] at h0
  simp only [mulVec, dotProduct, Pi.zero_apply, Fin.sum_univ_four] at h0
  have e : ∀ mu, (khat g.L per n mu : ℂ) * (((vol g.L : ℂ) • (fun mu nu => ((D n mu nu / g.glbVol : ℝ) : ℂ)) : Matrix (Fin 4) (Fin 4) ℂ)) mu nu =
      ((vol g.L : ℂ) / g.glbVol) * ((D n nu mu * khat g.L per n mu : ℝ) : ℂ) := fun mu => by
    have ht : D n mu nu = D n nu mu := by conv_lhs => rw [← (hD n).2.1, Matrix.transpose_apply]
    show (khat g.L per n mu : ℂ) * ((vol g.L : ℂ) * ((D n mu nu / g.glbVol : ℝ) : ℂ)) = _
    rw [ht]; push_cast; ring
  refine Eq.trans (Finset.sum_congr rfl fun mu _ => e mu) ?_
  rw [← Finset.mul_sum, ← Complex.ofReal_sum]
  have h0' : ∑ i ∈ ({1, 2, 3} : Finset Dir), D n nu i * khat g.L per n i = 0 := by
    rw [Finset.sum_insert (by decide), Finset.sum_insert (by decide), Finset.sum_singleton]
    simp at h0
    exact (by linarith [show (D n nu 1 * khat g.L per n 1 + D n nu 2 * khat g.L per n 2 + D n nu 3 * khat g.L per n 3) = 0 from h0])
  rw [h0']; simp

/-! ### Zero modes -/

/-- indicator of a set of momenta, as operator -/
noncomputable def ind (S : Coords → Bool) (n : Coords) : Matrix (Fin 4) (Fin 4) ℂ := if S n then 1 else 0

theorem conv_ind (L : Coords) (S : Coords → Bool) (psi : Coords → Site 4) (x : Coords) (mu : Dir) :
    conv L per (ind S) psi x mu = ∑ y ∈ box L, ((1 / (vol L : ℂ)) * ∑ n ∈ (box L).filter (fun n => S n = true), wave L per 1 n x mu * wave L per (-1) n y mu) * psi y mu := by
  rw [conv_kernel]
  refine Finset.sum_congr rfl fun y _ => ?_
  rw [Finset.sum_eq_single mu]
  · congr 2
    rw [Finset.sum_filter]
    refine Finset.sum_congr rfl fun n _ => ?_
    unfold ind
    split <;> simp
  · intro nu _ h
    rw [Finset.sum_eq_zero, mul_zero, zero_mul]
    intro n _
    unfold ind
    split
    · rw [Matrix.one_apply_ne (Ne.symm h), mul_zero]
    · simp
  · intro h; exact absurd (Finset.mem_univ _) h

/-- without momenta excluded it is the identity -/
theorem conv_all (g : Geo) (ok : g.Ok) (psi : Coords → Site 4) (x : Coords) (hx : x ∈ box g.L) (mu : Dir) : conv g.L per (ind fun _ => true) psi x mu = psi x mu := by
  rw [conv_ind, Finset.filter_true_of_mem (fun _ _ => rfl)]
  have e : ∀ y ∈ box g.L, (1 / (vol g.L : ℂ)) * (∑ n ∈ box g.L, wave g.L per 1 n x mu * wave g.L per (-1) n y mu) * psi y mu = if x = y then psi y mu else 0 := fun y hy => by
    rw [wave_complete g.L (fun mu => L_pos ok mu) per 1 (by simp) x y hx hy mu]
    by_cases h : x = y
    · rw [if_pos h, if_pos h, show (g.L 0 * g.L 1 * g.L 2 * g.L 3) = vol g.L from rfl, one_div_mul_cancel (vol_ne g ok), one_mul]
    · rw [if_neg h, if_neg h, mul_zero, zero_mul]
  rw [Finset.sum_congr rfl e, Finset.sum_ite_eq, if_pos hx]

theorem wave_pair (L : Coords) (n x y : Coords) (mu : Dir) :
    wave L per 1 n x mu * wave L per (-1) n y mu = Complex.exp (I * ((∑ nu, 2 * Real.pi * n nu * ((x nu : ℝ) - y nu) / L nu : ℝ) : ℂ)) := by
  rw [wave_mul]
  congr 3
  unfold arg lattMom per
  simp only [Fin.sum_univ_four]
  push_cast; ring

/-- the zero momentum is the mean on all the sites -/
theorem conv_zero (g : Geo) (ok : g.Ok) (psi : Coords → Site 4) (x : Coords) (mu : Dir) :
    conv g.L per (ind fun n => n 0 == 0 && n 1 == 0 && n 2 == 0 && n 3 == 0) psi x mu = (1 / (vol g.L : ℂ)) * ∑ y ∈ box g.L, psi y mu := by
  rw [conv_ind, Finset.mul_sum]
  refine Finset.sum_congr rfl fun y _ => ?_
  congr 1
  have : (box g.L).filter (fun n => (n 0 == 0 && n 1 == 0 && n 2 == 0 && n 3 == 0) = true) = {fun _ => 0} := by
    ext n
    simp only [Finset.mem_filter, mem_box, Bool.and_eq_true, beq_iff_eq, Finset.mem_singleton]
    constructor
    · rintro ⟨-, ⟨⟨h0, h1⟩, h2⟩, h3⟩
      funext nu; fin_cases nu
      · exact h0
      · exact h1
      · exact h2
      · exact h3
    · rintro rfl
      exact ⟨fun nu => L_pos ok nu, ⟨⟨rfl, rfl⟩, rfl⟩, rfl⟩
  rw [this, Finset.sum_singleton, wave_pair]
  simp

/-- the vanishing spatial momenta are the mean on each timeslice -/
theorem conv_slice (g : Geo) (ok : g.Ok) (psi : Coords → Site 4) (x : Coords) (hx : x ∈ box g.L) (mu : Dir) :
    conv g.L per (ind fun n => n 1 == 0 && n 2 == 0 && n 3 == 0) psi x mu = (1 / ((g.L 1 * g.L 2 * g.L 3 : ℕ) : ℂ)) * ∑ y ∈ (box g.L).filter (fun y => y 0 = x 0), psi y mu := by
  rw [conv_ind, Finset.mul_sum, Finset.sum_filter]
  refine Finset.sum_congr rfl fun y hy => ?_
  have e : ∑ n ∈ (box g.L).filter (fun n => (n 1 == 0 && n 2 == 0 && n 3 == 0) = true), wave g.L per 1 n x mu * wave g.L per (-1) n y mu =
      ∑ k ∈ Finset.range (g.L 0), Complex.exp (I * (((1 : Int) * (2 * Real.pi * k * ((x 0 : ℝ) - y 0) / g.L 0) : ℝ) : ℂ)) := by
    refine Finset.sum_bij' (i := fun n _ => n 0) (j := fun k _ => ![k, 0, 0, 0]) ?_ ?_ ?_ ?_ ?_
    · intro n hn
      rw [Finset.mem_filter, mem_box] at hn
      exact Finset.mem_range.2 (hn.1 0)
    · intro k hk
      rw [Finset.mem_filter, mem_box]
      refine ⟨fun nu => ?_, rfl⟩
      fin_cases nu
      · exact Finset.mem_range.1 hk
      · exact L_pos ok 1
      · exact L_pos ok 2
      · exact L_pos ok 3
    · intro n hn
      rw [Finset.mem_filter] at hn
      have h := hn.2
      simp only [Bool.and_eq_true, beq_iff_eq] at h
      funext nu; fin_cases nu
      · rfl
      · exact h.1.1.symm
      · exact h.1.2.symm
      · exact h.2.symm
    · intro k _; rfl
    · intro n hn
      rw [Finset.mem_filter] at hn
      have h := hn.2
      simp only [Bool.and_eq_true, beq_iff_eq] at h
      rw [wave_pair, Fin.sum_univ_four, h.1.1, h.1.2, h.2]
      simp
  rw [e, one_dim 1 (by simp) (g.L 0) (L_pos ok 0) _ _ (mem_box.1 hx 0) (mem_box.1 hy 0)]
  have h0 : (g.L 0 : ℂ) ≠ 0 := Nat.cast_ne_zero.2 (by have := L_pos ok 0; omega)
  by_cases h : y 0 = x 0
  · rw [if_pos h, if_pos h.symm]
    unfold vol
    push_cast
    field_simp
  · rw [if_neg h, if_neg (Ne.symm h), mul_zero, zero_mul]

/-- momenta different from zero are above the threshold, for all the lattices of side less than ten millions -/
theorem ksq_bound (g : Geo) (hL : ∀ mu, g.L mu ≤ 10000000) (n : Coords) (hn : n ∈ box g.L) (h : ∃ mu, n mu ≠ 0) : 1e-14 ≤ ksq g.L per n := by
  obtain ⟨mu, hmu⟩ := h
  have hl := mem_box.1 hn mu
  have h1 : khat g.L per n mu ^ 2 ≤ ksq g.L per n := Finset.single_le_sum (f := fun mu => khat g.L per n mu ^ 2) (fun nu _ => sq_nonneg _) (Finset.mem_univ mu)
  refine le_trans ?_ h1
  have hL0 : (0 : ℝ) < g.L mu := by exact_mod_cast (by omega : 0 < g.L mu)
  have hL7 : (g.L mu : ℝ) ≤ 10000000 := by exact_mod_cast hL mu
  have ek : khat g.L per n mu = 2 * Real.sin (Real.pi * n mu / g.L mu) := by unfold khat lattMom per; congr 2; ring
  have key : ∀ k : ℕ, 1 ≤ k → 2 * k ≤ g.L mu → 2 / (g.L mu : ℝ) ≤ Real.sin (Real.pi * k / g.L mu) := fun k hk hk2 => by
    have hk' : (1 : ℝ) ≤ k := by exact_mod_cast hk
    have hk2' : 2 * (k : ℝ) ≤ g.L mu := by exact_mod_cast hk2
    have := Real.mul_le_sin (x := Real.pi * k / g.L mu) (by positivity) (by
      rw [div_le_div_iff₀ hL0 (by norm_num)]; nlinarith [Real.pi_pos])
    refine le_trans ?_ this
    rw [show 2 / Real.pi * (Real.pi * k / g.L mu) = 2 * k / g.L mu from by field_simp [Real.pi_ne_zero]]
    exact (div_le_div_iff_of_pos_right hL0).2 (by linarith)
  have hs : 2 / (g.L mu : ℝ) ≤ Real.sin (Real.pi * n mu / g.L mu) := by
    by_cases h2 : 2 * n mu ≤ g.L mu
    · exact key (n mu) (by omega) h2
    · have := key (g.L mu - n mu) (by omega) (by omega)
      rw [Nat.cast_sub (by omega)] at this
      have e : Real.pi * ((g.L mu : ℝ) - n mu) / g.L mu = Real.pi - Real.pi * n mu / g.L mu := by field_simp
      rwa [e, Real.sin_pi_sub] at this
  have h7 : (2 : ℝ) / 10000000 ≤ 2 / g.L mu := by
    rw [div_le_div_iff₀ (by norm_num) hL0]; linarith
  rw [ek]
  have : (2 : ℝ) / 10000000 ≤ Real.sin (Real.pi * n mu / g.L mu) := le_trans h7 hs
  have := mul_self_le_mul_self (by norm_num) this
  nlinarith

theorem nonzero_some (gl : GaugeInfo) (n : Coords) (h : isNonZeroMode gl n = true) : ∃ mu, n mu ≠ 0 := by
  by_contra hc
  push_neg at hc
  unfold isNonZeroMode at h
  cases hz : gl.zms <;> rw [hz] at h <;> simp [hc] at h

/-- minus the Laplacian of the field in Feynman gauge, with the Wilson action, is the input without the zero modes -/
theorem feynman_lap (g : Geo) (ok : g.Ok) (hL : ∀ mu, g.L mu ≤ 10000000) (X : Nat → Nat → Coords) (hX : CoordTable g X) (hd : ∀ mu, DirOk g X mu) (gl : GaugeInfo) (hb : gl.bc = fun _ => 0)
    (hc : gl.c1 = 0) (hg : gl.gauge = .feynman) (psi : Coords → Site 4) (inp out : Nat → Nat → Site 4) (hinp : Layouts.Represents g X psi inp) (h : MulByProp g X gl inp out) :
    ∃ M : Coords → Matrix (Fin 4) (Fin 4) ℂ, (∀ n ∈ box g.L, isNonZeroMode gl n = false → M n = 0) ∧ Layouts.Represents g X (conv g.L per M psi) out ∧
      ∀ x ∈ box g.L, ∀ mu, ∑ nu, (2 * conv g.L per M psi x mu - conv g.L per M psi (tshift g x nu 1) mu - conv g.L per M psi (tshift g x nu (-1)) mu) =
        psi x mu - conv g.L per (ind fun n => !isNonZeroMode gl n) psi x mu := by
  have hP : ∀ n ∈ box g.L, propagator g gl n = some ((if isNonZeroMode gl n then (1 / (ksq g.L per n : ℂ) / (vol g.L : ℂ)) else 0) • (1 : Matrix (Fin 4) (Fin 4) ℂ)) := fun n hn => by
    by_cases hz : isNonZeroMode gl n = true
    · have hk : 1e-14 ≤ ksq g.L gl.bc n := by rw [hb]; exact ksq_bound g hL n hn (nonzero_some gl n hz)
      obtain ⟨D, e, -, hD, -⟩ := C55_feynman g gl n hg hc.le hz hk
      have hp : 0 < ksq g.L gl.bc n := lt_of_lt_of_le (by norm_num) hk
      rw [hc, kernel_wilson, sub_add_cancel, Matrix.smul_mul, Matrix.one_mul] at hD
      have hD' : D = (1 / ksq g.L gl.bc n) • (1 : R4) := by
        rw [← hD, smul_smul, one_div, inv_mul_cancel₀ hp.ne', one_smul]
      rw [e, hD', if_pos hz, glbVol_vol, hb]
      congr 1
      funext mu nu
      show _ = (1 / (ksq g.L per n : ℂ) / (vol g.L : ℂ)) * (1 : Matrix (Fin 4) (Fin 4) ℂ) mu nu
      rw [Matrix.smul_apply, smul_eq_mul]
      by_cases h : mu = nu
      · rw [h, Matrix.one_apply_eq, Matrix.one_apply_eq]; push_cast; rw [mul_one, mul_one]; rfl
      · rw [Matrix.one_apply_ne h, Matrix.one_apply_ne h]; simp
    · rw [if_neg hz, zero_smul]
      exact (C55_zero_mode g gl n).2.1 (by simpa using hz)
  have hr := mul_conv g ok X hX hd gl _ hP _ inp out hinp h
  rw [hb] at hr
  refine ⟨_, fun n hn hz => ?_, hr, fun x hx mu => ?_⟩
  · simp [hz]
  · have e : ∀ nu, 2 * conv g.L per (fun n => (vol g.L : ℂ) • (if isNonZeroMode gl n then (1 / (ksq g.L per n : ℂ) / (vol g.L : ℂ)) else 0) • (1 : Matrix (Fin 4) (Fin 4) ℂ)) psi x mu -
        conv g.L per (fun n => (vol g.L : ℂ) • (if isNonZeroMode gl n then (1 / (ksq g.L per n : ℂ) / (vol g.L : ℂ)) else 0) • (1 : Matrix (Fin 4) (Fin 4) ℂ)) psi (tshift g x nu 1) mu -
        conv g.L per (fun n => (vol g.L : ℂ) • (if isNonZeroMode gl n then (1 / (ksq g.L per n : ℂ) / (vol g.L : ℂ)) else 0) • (1 : Matrix (Fin 4) (Fin 4) ℂ)) psi (tshift g x nu (-1)) mu =
        conv g.L per (fun n => ((khat g.L per n nu ^ 2 : ℝ) : ℂ) • (vol g.L : ℂ) • (if isNonZeroMode gl n then (1 / (ksq g.L per n : ℂ) / (vol g.L : ℂ)) else 0) • (1 : Matrix (Fin 4) (Fin 4) ℂ)) psi x mu := fun nu => by
      unfold conv
      rw [Finset.mul_sum, ← Finset.sum_sub_distrib, ← Finset.sum_sub_distrib]
      refine Finset.sum_congr rfl fun n _ => ?_
      rw [← mul_assoc, ← sub_mul, ← sub_mul, wave_lap g ok]
      simp only [Matrix.smul_apply, smul_eq_mul, Fin.sum_univ_four]
      ring
    refine Eq.trans (Finset.sum_congr rfl fun nu _ => e nu) ?_
    rw [← conv_all g ok psi x hx mu, conv, conv]
    unfold conv
    rw [Finset.sum_comm, ← Finset.sum_sub_distrib]
    refine Finset.sum_congr rfl fun n hn => ?_
    rw [← Finset.mul_sum, ← mul_sub]
    congr 1
    have hV := vol_ne g ok
    by_cases hz : isNonZeroMode gl n = true
    · have hk : (ksq g.L per n : ℂ) ≠ 0 := Complex.ofReal_ne_zero.2 (ne_of_gt (lt_of_lt_of_le (by norm_num) (ksq_bound g hL n hn (nonzero_some gl n hz))))
      have hsum : ((khat g.L per n 0 : ℂ) ^ 2 + (khat g.L per n 1 : ℂ) ^ 2 + (khat g.L per n 2 : ℂ) ^ 2 + (khat g.L per n 3 : ℂ) ^ 2) = (ksq g.L per n : ℂ) := by
        unfold ksq; rw [Fin.sum_univ_four]; push_cast; rfl
      obtain ⟨F, hF⟩ : ∃ F : Fin 4 → ℂ, ∀ nu, (1 / (vol g.L : ℂ)) * ∑ y ∈ box g.L, wave g.L per (-1) n y nu * psi y nu = F nu := ⟨_, fun _ => rfl⟩
      have t : ∀ (a : ℂ), ∑ nu, a * (1 : Matrix (Fin 4) (Fin 4) ℂ) mu nu * F nu = a * F mu := fun a => by
        simp [Matrix.one_apply, mul_assoc]
      have t1 : ∑ nu, (1 : Matrix (Fin 4) (Fin 4) ℂ) mu nu * F nu = F mu := by simp [Matrix.one_apply]
      simp only [hF, hz, if_true, ind, Matrix.smul_apply, smul_eq_mul, Bool.not_true, Bool.false_eq_true, if_false, Matrix.zero_apply, zero_mul, Finset.sum_const_zero, sub_zero, t1]
      have e3 : ∀ a : ℂ, ∑ nu, a * ((vol g.L : ℂ) * (1 / (ksq g.L per n : ℂ) / (vol g.L : ℂ) * (1 : Matrix (Fin 4) (Fin 4) ℂ) mu nu)) * F nu = a * (1 / (ksq g.L per n : ℂ)) * F mu := fun a => by
        rw [← t]
        exact Finset.sum_congr rfl fun nu _ => by field_simp
      simp only [e3]
      rw [← Finset.sum_mul, ← Finset.sum_mul, Fin.sum_univ_four]
      push_cast
      rw [hsum]
      field_simp
    · simp only [hz, ind, Matrix.smul_apply, smul_eq_mul]
      simp

theorem conv_null (g : Geo) (ok : g.Ok) (S : Coords → Bool) (M : Coords → Matrix (Fin 4) (Fin 4) ℂ) (hM : ∀ n ∈ box g.L, S n = true → M n = 0) (psi : Coords → Site 4) (x : Coords) (mu : Dir) :
    conv g.L per (ind S) (conv g.L per M psi) x mu = 0 := by
  rw [conv_comp g ok, conv_congr g.L per _ (fun _ => 0) psi psi (fun n hn => by
    unfold ind
    by_cases h : S n = true
    · rw [hM n hn h, Matrix.mul_zero]
    · rw [if_neg h, Matrix.zero_mul]) (fun _ _ => rfl) x]
  simp [conv]

/-- C55: in all the gauges, with periodic boundary conditions, the field has no zero modes: the mean vanishes on the lattice (PECIONA), or on each timeslice (UNNO_ALEMANNA) -/
theorem C55_no_zero_modes_partial (g : Geo) (ok : g.Ok) (X : Nat → Nat → Coords) (hX : CoordTable g X) (hd : ∀ mu, DirOk g X mu) (gl : GaugeInfo) (hb : gl.bc = fun _ => 0)
    (hc : gl.c1 ≤ 0) (hg : gl.gauge = .coulomb → gl.c1 = 0) (inp out : Nat → Nat → Site 4) (h : MulByProp g X gl inp out) :
    ∃ phi : Coords → Site 4, Layouts.Represents g X phi out ∧
      (gl.zms = .peciona → ∀ mu, ∑ x ∈ box g.L, phi x mu = 0) ∧
      (gl.zms = .unnoAlemanna → ∀ t, t < g.L 0 → ∀ mu, ∑ x ∈ (box g.L).filter (fun x => x 0 = t), phi x mu = 0) := by
  choose D hD using fun n => C55_positive g gl n hc hg
  have hrep : Layouts.Represents g X (fun c => inp (getLoclxAndRankOfCoords g c).1 (getLoclxAndRankOfCoords g c).2) inp := by
    intro r i hr hi
    simp only [(coordTable_of g ok X hX r i hr hi).2]
  have hr := mul_conv g ok X hX hd gl _ (fun n _ => (hD n).1) _ inp out hrep h
  rw [hb] at hr
  have hz : ∀ n, isNonZeroMode gl n = false → (vol g.L : ℂ) • ((fun mu nu => ((D n mu nu / g.glbVol : ℝ) : ℂ)) : Matrix (Fin 4) (Fin 4) ℂ) = 0 := fun n hn => by
    rw [prop_zero g gl n _ (hD n).1 hn]; exact smul_zero (A := Matrix (Fin 4) (Fin 4) ℂ) _
  refine ⟨_, hr, fun hp mu => ?_, fun hp t ht mu => ?_⟩
  · have e := conv_zero g ok (conv g.L per (fun n => (vol g.L : ℂ) • ((fun mu nu => ((D n mu nu / g.glbVol : ℝ) : ℂ)) : Matrix (Fin 4) (Fin 4) ℂ))
      (fun c => inp (getLoclxAndRankOfCoords g c).1 (getLoclxAndRankOfCoords g c).2)) (fun _ => 0) mu
    rw [conv_null g ok _ _ (fun n _ h => hz n (by unfold isNonZeroMode; rw [hp]; simpa using h))] at e
    exact (mul_eq_zero.1 e.symm).resolve_left (one_div_ne_zero (vol_ne g ok))
  · have hx : (![t, 0, 0, 0] : Coords) ∈ box g.L := mem_box.2 fun nu => by
      fin_cases nu
      · exact ht
      · exact L_pos ok 1
      · exact L_pos ok 2
      · exact L_pos ok 3
    have e := conv_slice g ok (conv g.L per (fun n => (vol g.L : ℂ) • ((fun mu nu => ((D n mu nu / g.glbVol : ℝ) : ℂ)) : Matrix (Fin 4) (Fin 4) ℂ))
      (fun c => inp (getLoclxAndRankOfCoords g c).1 (getLoclxAndRankOfCoords g c).2)) ![t, 0, 0, 0] hx mu
    rw [conv_null g ok _ _ (fun n _ h => hz n (by unfold isNonZeroMode; rw [hp]; simpa using h))] at e
    refine (mul_eq_zero.1 e.symm).resolve_left (one_div_ne_zero (Nat.cast_ne_zero.2 ?_))
    have h1 := L_pos ok 1; have h2 := L_pos ok 2; have h3 := L_pos ok 3
    positivity

/-- C55: in Feynman gauge, with the Wilson action and periodic boundary conditions, the product by the propagator solves the lattice wave equation with source the input without its zero modes -/
theorem C55_feynman_position_partial (g : Geo) (ok : g.Ok) (hL : ∀ mu, g.L mu ≤ 10000000) (X : Nat → Nat → Coords) (hX : CoordTable g X) (hd : ∀ mu, DirOk g X mu) (gl : GaugeInfo)
    (hb : gl.bc = fun _ => 0) (hc : gl.c1 = 0) (hg : gl.gauge = .feynman) (psi : Coords → Site 4) (inp out : Nat → Nat → Site 4) (hinp : Layouts.Represents g X psi inp)
    (h : MulByProp g X gl inp out) :
    ∃ phi : Coords → Site 4, Layouts.Represents g X phi out ∧
      (gl.zms = .peciona → ∀ x ∈ box g.L, ∀ mu, ∑ nu, (2 * phi x mu - phi (tshift g x nu 1) mu - phi (tshift g x nu (-1)) mu) =
        psi x mu - (1 / (g.glbVol : ℂ)) * ∑ y ∈ box g.L, psi y mu) ∧
      (gl.zms = .unnoAlemanna → ∀ x ∈ box g.L, ∀ mu, ∑ nu, (2 * phi x mu - phi (tshift g x nu 1) mu - phi (tshift g x nu (-1)) mu) =
        psi x mu - (1 / ((g.L 1 * g.L 2 * g.L 3 : ℕ) : ℂ)) * ∑ y ∈ (box g.L).filter (fun y => y 0 = x 0), psi y mu) := by
  obtain ⟨M, -, hr, he⟩ := feynman_lap g ok hL X hX hd gl hb hc hg psi inp out hinp h
  refine ⟨_, hr, fun hz x hx mu => ?_, fun hz x hx mu => ?_⟩
  · rw [he x hx mu, glbVol_vol, ← conv_zero g ok psi x mu]
    unfold isNonZeroMode; simp only [hz, Bool.not_not]
  · rw [he x hx mu, ← conv_slice g ok psi x hx mu]
    unfold isNonZeroMode; simp only [hz, Bool.not_not]

/-! ### Instances -/

/-- a lattice on one rank -/
def phGeo : Geo := ⟨fun _ => 4, fun _ => 1⟩

theorem phGeo_ok : phGeo.Ok := by decide

theorem phGeo_dirs (mu : Dir) : DirOk phGeo (siteCoords phGeo) mu :=
  C25_slabs phGeo phGeo_ok _ (siteCoords_table phGeo phGeo_ok) mu (if mu = 0 then 1 else 0) (by revert mu; decide) (fun nu _ => rfl)

/-- the product by the tree level Symanzik propagator in Landau gauge is defined for each field -/
example (inp : Nat → Nat → Site 4) : ∃ out, MulByProp phGeo (siteCoords phGeo) ⟨.peciona, -1 / 12, .landau, fun _ => 0⟩ inp out := by
  choose D hD using fun n => C55_positive phGeo ⟨.peciona, -1 / 12, .landau, fun _ => 0⟩ n (by norm_num) (fun h => by cases h)
  exact (C55_multiply_partial phGeo phGeo_ok _ (siteCoords_table phGeo phGeo_ok) phGeo_dirs _ _ (fun n _ => (hD n).1)
    (fun c => inp (getLoclxAndRankOfCoords phGeo c).1 (getLoclxAndRankOfCoords phGeo c).2) inp (fun r i hr hi => by
      simp only [(coordTable_of phGeo phGeo_ok _ (siteCoords_table phGeo phGeo_ok) r i hr hi).2])).1

/-- the product by the square root is defined for each field, with an eigensolver which exists -/
example (inp : Nat → Nat → Site 4) : ∃ sol out, SolverOk sol ∧ MulBySqrt (some sol) Real.sqrt phGeo (siteCoords phGeo) ⟨.unnoAlemanna, 0, .coulomb, fun _ => 0⟩ inp out := by
  obtain ⟨sol, hs⟩ := solver_exists
  obtain ⟨out, h⟩ := (C55_sqrt_twice_partial (some sol) (fun s h => Option.some.inj h ▸ hs) Real.sqrt phGeo phGeo_ok _ (siteCoords_table phGeo phGeo_ok) phGeo_dirs
    ⟨.unnoAlemanna, 0, .coulomb, fun _ => 0⟩ le_rfl (fun _ => rfl) inp).1.1 (fun h => by cases h)
  exact ⟨sol, out, hs, h⟩

/-- the momentum `(1,0,0,0)` satisfies the hypotheses of the theorems on the propagator, and the propagator of its transverse components is positive -/
example : isNonZeroMode ⟨.peciona, -1 / 12, .landau, fun _ => 0⟩ ![1, 0, 0, 0] = true ∧ 1e-14 ≤ ksq phGeo.L (fun _ => 0) ![1, 0, 0, 0] :=
  ⟨by decide, ksq_bound phGeo (fun _ => by show 4 ≤ 10000000; omega) _ (mem_box.2 (by decide)) ⟨0, by decide⟩⟩

end Nissa.Phot
