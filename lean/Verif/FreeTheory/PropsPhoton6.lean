import Verif.FreeTheory.PropsPhoton5

/-! # C55: product by the gauge propagator, in position space -/

set_option linter.all false

namespace Nissa.Phot
open Nissa.Lx Nissa.Free Nissa.Fft Matrix Complex

/-- volume of the lattice -/
def vol (L : Coords) : Nat := L 0 * L 1 * L 2 * L 3

/-- operator diagonal in momentum space -/
noncomputable def conv (L : Coords) (bc : Dir → ℝ) (M : Coords → Matrix (Fin 4) (Fin 4) ℂ) (psi : Coords → Site 4) (x : Coords) (mu : Dir) : ℂ :=
  ∑ n ∈ box L, wave L bc 1 n x mu * ∑ nu, M n mu nu * ((1 / (vol L : ℂ)) * ∑ y ∈ box L, wave L bc (-1) n y nu * psi y nu)

theorem num_true (f : Dir → ℝ) : (fun mu => f mu * num true) = f := by funext mu; simp [num]

theorem glbVol_vol (g : Geo) : g.glbVol = vol g.L := by
  exact C01_volOfLx g.L

theorem vol_ne (g : Geo) (ok : g.Ok) : (vol g.L : ℂ) ≠ 0 := by
  have h0 := L_pos ok 0; have h1 := L_pos ok 1; have h2 := L_pos ok 2; have h3 := L_pos ok 3
  exact Nat.cast_ne_zero.2 (by unfold vol; positivity)

/-- the product in momentum space between the two passes -/
theorem pipeline (g : Geo) (ok : g.Ok) (X : Nat → Nat → Coords) (hX : CoordTable g X) (hd : ∀ mu, DirOk g X mu) (bc : Dir → ℝ) (M : Coords → Matrix (Fin 4) (Fin 4) ℂ)
    (psi : Coords → Site 4) (inp p q out : Nat → Nat → Site 4) (hinp : Layouts.Represents g X psi inp) (h1 : XToMom g X (fun _ => true) bc true true inp p)
    (h2 : ∀ r i, r < g.nranks → i < g.locVol → q r i = fun mu => ∑ nu, M (X r i) mu nu * p r i nu) (h3 : MomToX g X (fun _ => true) bc true true q out) :
    Layouts.Represents g X (conv g.L bc M psi) out := by
  have a := (C55_to_momentum_partial g ok X hX hd bc true true psi inp hinp).2 p h1
  have b : Layouts.Represents g X (fun n mu => ∑ nu, M n mu nu * ((1 / (vol g.L : ℂ)) * ∑ y ∈ box g.L, wave g.L bc (-1) n y nu * psi y nu)) q := fun r i hr hi => by
    rw [h2 r i hr hi]
    funext mu
    refine Finset.sum_congr rfl fun nu _ => ?_
    rw [a r i hr hi]
    simp only [num_true, if_true]; rfl
  have c := (C55_to_position_partial g ok X hX hd bc true true _ q b).2 out h3
  intro r i hr hi
  rw [c r i hr hi]
  funext mu
  simp only [num_true, if_true]; rfl

/-- a combination of plane waves has the expected amplitudes -/
theorem analysis (g : Geo) (ok : g.Ok) (bc : Dir → ℝ) (F : Coords → ℂ) (n : Coords) (hn : n ∈ box g.L) (nu : Dir) :
    (1 / (vol g.L : ℂ)) * ∑ y ∈ box g.L, wave g.L bc (-1) n y nu * (∑ m ∈ box g.L, wave g.L bc 1 m y nu * F m) = F n := by
  have e : ∑ y ∈ box g.L, wave g.L bc (-1) n y nu * (∑ m ∈ box g.L, wave g.L bc 1 m y nu * F m) = ∑ m ∈ box g.L, if n = m then (vol g.L : ℂ) * F m else 0 := by
    simp only [Finset.mul_sum]
    rw [Finset.sum_comm]
    refine Finset.sum_congr rfl fun m hm => ?_
    have hw := wave_orth g.L (fun mu => L_pos ok mu) bc (-1) (by simp) n m hn hm nu
    rw [neg_neg] at hw
    have := congrArg (fun z => z * F m) hw
    simp only [Finset.sum_mul] at this
    refine Eq.trans (Finset.sum_congr rfl fun y _ => by ring) (this.trans ?_)
    split
    · rfl
    · rw [zero_mul]
  rw [e, Finset.sum_ite_eq, if_pos hn, ← mul_assoc, one_div_mul_cancel (vol_ne g ok), one_mul]

/-- composition of operators diagonal in momentum space -/
theorem conv_comp (g : Geo) (ok : g.Ok) (bc : Dir → ℝ) (M N : Coords → Matrix (Fin 4) (Fin 4) ℂ) (psi : Coords → Site 4) (x : Coords) (mu : Dir) :
    conv g.L bc M (conv g.L bc N psi) x mu = conv g.L bc (fun n => M n * N n) psi x mu := by
  rw [conv, conv]
  refine Finset.sum_congr rfl fun n hn => ?_
  congr 1
  have key : ∀ nu, (1 / (vol g.L : ℂ)) * ∑ y ∈ box g.L, wave g.L bc (-1) n y nu * conv g.L bc N psi y nu =
      ∑ rho, N n nu rho * ((1 / (vol g.L : ℂ)) * ∑ y ∈ box g.L, wave g.L bc (-1) n y rho * psi y rho) := fun nu =>
    analysis g ok bc (fun n => ∑ rho, N n nu rho * ((1 / (vol g.L : ℂ)) * ∑ y ∈ box g.L, wave g.L bc (-1) n y rho * psi y rho)) n hn nu
  simp only [key, Matrix.mul_apply]
  generalize (fun rho => (1 / (vol g.L : ℂ)) * ∑ y ∈ box g.L, wave g.L bc (-1) n y rho * psi y rho) = F at *
  simp only [Fin.sum_univ_four]
  ring

theorem conv_congr (L : Coords) (bc : Dir → ℝ) (M N : Coords → Matrix (Fin 4) (Fin 4) ℂ) (psi psi' : Coords → Site 4) (hM : ∀ n ∈ box L, M n = N n) (hp : ∀ y ∈ box L, psi y = psi' y) (x : Coords) :
    conv L bc M psi x = conv L bc N psi' x := by
  funext mu
  unfold conv
  refine Finset.sum_congr rfl fun n hn => ?_
  rw [hM n hn]
  congr 1
  refine Finset.sum_congr rfl fun nu _ => ?_
  congr 2
  exact Finset.sum_congr rfl fun y hy => by rw [hp y hy]

theorem conv_smul (L : Coords) (bc : Dir → ℝ) (a : ℂ) (M : Coords → Matrix (Fin 4) (Fin 4) ℂ) (psi : Coords → Site 4) (x : Coords) (mu : Dir) :
    conv L bc (fun n => a • M n) psi x mu = a * conv L bc M psi x mu := by
  unfold conv
  rw [Finset.mul_sum]
  refine Finset.sum_congr rfl fun n hn => ?_
  simp only [Matrix.smul_apply, smul_eq_mul, Finset.mul_sum _ _ a, mul_assoc]
  rw [mul_left_comm, Finset.mul_sum _ _ a]

/-- the same as sum on the sites -/
theorem conv_kernel (L : Coords) (bc : Dir → ℝ) (M : Coords → Matrix (Fin 4) (Fin 4) ℂ) (psi : Coords → Site 4) (x : Coords) (mu : Dir) :
    conv L bc M psi x mu = ∑ y ∈ box L, ∑ nu, ((1 / (vol L : ℂ)) * ∑ n ∈ box L, wave L bc 1 n x mu * wave L bc (-1) n y nu * M n mu nu) * psi y nu := by
  unfold conv
  simp only [Finset.mul_sum, Finset.sum_mul]
  rw [Finset.sum_comm' (s := box L) (t := fun _ => Finset.univ) (t' := Finset.univ) (s' := fun _ => box L) (by simp)]
  rw [Finset.sum_comm' (s := box L) (t := fun _ => Finset.univ) (t' := Finset.univ) (s' := fun _ => box L) (by simp)]
  refine Finset.sum_congr rfl fun nu _ => ?_
  rw [Finset.sum_comm]
  exact Finset.sum_congr rfl fun _ _ => Finset.sum_congr rfl fun _ _ => by ring

/-- the propagator vanishes on the zero modes -/
theorem prop_zero (g : Geo) (gl : GaugeInfo) (c : Coords) (P : Matrix (Fin 4) (Fin 4) ℂ) (h : propagator g gl c = some P) (hn : isNonZeroMode gl c = false) : P = 0 := by
  have := (C55_zero_mode g gl c).2.1 hn
  rw [h] at this
  exact Option.some.inj this

/-- scaling and cancellation of the zero modes where these are already absent -/
theorem scale_val (X : Nat → Nat → Coords) (gl : GaugeInfo) (a : ℝ) (q : Nat → Nat → Site 4) (r i : Nat) (h : isNonZeroMode gl (X r i) = false → q r i = 0) :
    scaleCancel X gl a q r i = fun mu => (a : ℂ) * q r i mu := by
  funext mu
  unfold scaleCancel cancelField
  by_cases hn : isNonZeroMode gl (X r i) = true
  · rw [hn]
    apply Complex.ext <;> simp [num] <;> ring
  · rw [Bool.not_eq_true] at hn
    rw [h hn, hn]
    apply Complex.ext <;> simp [num]

theorem prodField_eq (p : Matrix (Fin 4) (Fin 4) ℂ) (v : Site 4) : prodField p v = fun mu => ∑ nu, p mu nu * v nu := by
  funext mu
  simp only [prodField, List.foldl_cons, List.foldl_nil, Fin.sum_univ_four]; ring

/-- the value of the product -/
theorem mul_conv (g : Geo) (ok : g.Ok) (X : Nat → Nat → Coords) (hX : CoordTable g X) (hd : ∀ mu, DirOk g X mu) (gl : GaugeInfo)
    (P : Coords → Matrix (Fin 4) (Fin 4) ℂ) (hP : ∀ n ∈ box g.L, propagator g gl n = some (P n)) (psi : Coords → Site 4) (inp out : Nat → Nat → Site 4)
    (hinp : Layouts.Represents g X psi inp) (h : MulByProp g X gl inp out) : Layouts.Represents g X (conv g.L gl.bc (fun n => (vol g.L : ℂ) • P n) psi) out := by
  obtain ⟨p, q, h1, h2, h3⟩ := h
  refine pipeline g ok X hX hd gl.bc _ psi inp p _ out hinp h1 (fun r i hr hi => ?_) h3
  have e := h2 r i hr hi
  beta_reduce at e
  obtain ⟨hc, -⟩ := coordTable_of g ok X hX r i hr hi
  rw [hP _ (mem_box.2 hc), Option.map_some] at e
  have e' := Option.some.inj e
  rw [scale_val X gl _ q r i (fun hn => by
    rw [← e', prop_zero g gl _ _ (hP _ (mem_box.2 hc)) hn, prodField_eq]; funext mu; simp)]
  funext mu
  rw [← e', prodField_eq, glbVol_vol, Finset.mul_sum]
  refine Finset.sum_congr rfl fun nu _ => ?_
  simp only [Matrix.smul_apply, smul_eq_mul]
  push_cast; ring

/-- C55: the product by the propagator ends whenever the propagator of all the momenta is defined, and is the convolution with the sum on all the momenta of the propagator by the plane waves
in the middle of the links -/
theorem C55_multiply_partial (g : Geo) (ok : g.Ok) (X : Nat → Nat → Coords) (hX : CoordTable g X) (hd : ∀ mu, DirOk g X mu) (gl : GaugeInfo)
    (P : Coords → Matrix (Fin 4) (Fin 4) ℂ) (hP : ∀ n ∈ box g.L, propagator g gl n = some (P n)) (psi : Coords → Site 4) (inp : Nat → Nat → Site 4)
    (hinp : Layouts.Represents g X psi inp) :
    (∃ out, MulByProp g X gl inp out) ∧
    ∀ out, MulByProp g X gl inp out →
      Layouts.Represents g X (fun x mu => ∑ y ∈ box g.L, ∑ nu, (∑ n ∈ box g.L, wave g.L gl.bc 1 n x mu * wave g.L gl.bc (-1) n y nu * P n mu nu) * psi y nu) out := by
  constructor
  · obtain ⟨⟨p, hp⟩, hp'⟩ := C55_to_momentum_partial g ok X hX hd gl.bc true true psi inp hinp
    have hq : ∃ q, MulMom g X gl p q := ⟨fun r i => prodField (P (X r i)) (p r i), fun r i hr hi => by
      obtain ⟨hc, -⟩ := coordTable_of g ok X hX r i hr hi
      beta_reduce
      rw [hP _ (mem_box.2 hc)]; rfl⟩
    obtain ⟨q, hq⟩ := hq
    obtain ⟨psi', hpsi'⟩ : ∃ psi', Layouts.Represents g X psi' (scaleCancel X gl g.glbVol q) :=
      ⟨fun c => scaleCancel X gl g.glbVol q (getLoclxAndRankOfCoords g c).1 (getLoclxAndRankOfCoords g c).2, fun r i hr hi => by
        simp only [(coordTable_of g ok X hX r i hr hi).2]⟩
    obtain ⟨⟨out, ho⟩, -⟩ := C55_to_position_partial g ok X hX hd gl.bc true true psi' _ hpsi'
    exact ⟨out, p, q, hp, hq, ho⟩
  · intro out ho r i hr hi
    rw [mul_conv g ok X hX hd gl P hP psi inp out hinp ho r i hr hi]
    funext mu
    rw [conv_kernel]
    refine Finset.sum_congr rfl fun y _ => Finset.sum_congr rfl fun nu _ => ?_
    congr 1
    rw [Finset.mul_sum]
    refine Finset.sum_congr rfl fun n _ => ?_
    simp only [Matrix.smul_apply, smul_eq_mul]
    have := vol_ne g ok
    field_simp

/-- a root of the propagator of a momentum, as used by the product with the square root -/
def IsRoot (g : Geo) (gl : GaugeInfo) (n : Coords) (R : R4) : Prop :=
  R.PosSemidef ∧ propagator g gl n = some ((R * R).map Complex.ofReal)

/-- the sites of the product by the square root, with or without Eigen -/
theorem sqrt_any (solver : Option Solver) (hs : ∀ sol, solver = some sol → SolverOk sol) (g : Geo) (gl : GaugeInfo) (hc : gl.c1 ≤ 0) (hg : gl.gauge = .coulomb → gl.c1 = 0)
    (hn : solver = none → gl.gauge = .feynman ∧ gl.c1 = 0) (n : Coords) :
    ∃ R : R4, IsRoot g gl n R ∧ ∀ P, propagator g gl n = some P → ∀ inp, sqrtSite solver P inp = some (fun mu => ∑ nu, (R mu nu : ℂ) * inp nu) := by
  cases solver with
  | some sol =>
    obtain ⟨P, R, e, h1, h2, -, h4⟩ := C55_sqrt sol (hs sol rfl) g gl n hc hg
    refine ⟨R, ⟨h1, by rw [h2]; exact e⟩, fun P' h inp => ?_⟩
    rw [e] at h
    rw [← Option.some.inj h]; exact h4 inp
  | none =>
    obtain ⟨h5, h6⟩ := hn rfl
    obtain ⟨P, R, e, h1, h2, -, h4⟩ := C55_sqrt_noeigen g gl n h6 h5
    refine ⟨R, ⟨h1, by rw [h2]; exact e⟩, fun P' h inp => ?_⟩
    rw [e] at h
    rw [← Option.some.inj h]; exact h4 inp

/-- the value of the product by the square root -/
theorem sqrt_conv (solver : Option Solver) (sqrtf : ℝ → ℝ) (g : Geo) (ok : g.Ok) (X : Nat → Nat → Coords) (hX : CoordTable g X) (hd : ∀ mu, DirOk g X mu) (gl : GaugeInfo)
    (R : Coords → R4) (hR : ∀ n, IsRoot g gl n (R n) ∧ ∀ P, propagator g gl n = some P → ∀ inp, sqrtSite solver P inp = some (fun mu => ∑ nu, (R n mu nu : ℂ) * inp nu))
    (psi : Coords → Site 4) (inp out : Nat → Nat → Site 4)
    (hinp : Layouts.Represents g X psi inp) (h : MulBySqrt solver sqrtf g X gl inp out) :
    Layouts.Represents g X (conv g.L gl.bc (fun n => (sqrtf (vol g.L) : ℂ) • (R n).map Complex.ofReal) psi) out := by
  obtain ⟨p, q, h1, ⟨-, h2⟩, h3⟩ := h
  refine pipeline g ok X hX hd gl.bc _ psi inp p _ out hinp h1 (fun r i hr hi => ?_) h3
  have e := h2 r i hr hi
  beta_reduce at e
  obtain ⟨⟨hp, hP⟩, h4⟩ := hR (X r i)
  rw [hP, Option.bind_some, h4 _ hP] at e
  have e' := Option.some.inj e
  rw [scale_val X gl _ q r i (fun hn => by
    have z := prop_zero g gl _ _ hP hn
    have z' : R (X r i) * R (X r i) = 0 := by
      ext mu nu
      have := congrFun (congrFun z mu) nu
      exact Complex.ofReal_eq_zero.1 this
    have z0 : R (X r i) = 0 := root_unique hp Matrix.PosSemidef.zero (by rw [z', Matrix.mul_zero])
    rw [← e', z0]; funext mu; simp)]
  funext mu
  rw [← e', glbVol_vol, Finset.mul_sum]
  refine Finset.sum_congr rfl fun nu _ => ?_
  simp only [Matrix.smul_apply, smul_eq_mul, Matrix.map_apply]
  ring

/-- C55: the product by the square root of the propagator ends for all gauges of non positive `c1`, and applied twice it is the product by the propagator, up to the square of the ratio of the
(single precision) square root of the volume and of the true one; without Eigen this needs the Feynman gauge and the Wilson action, and all other cases crash -/
theorem C55_sqrt_twice_partial (solver : Option Solver) (hs : ∀ sol, solver = some sol → SolverOk sol) (sqrtf : ℝ → ℝ) (g : Geo) (ok : g.Ok) (X : Nat → Nat → Coords) (hX : CoordTable g X)
    (hd : ∀ mu, DirOk g X mu) (gl : GaugeInfo) (hc : gl.c1 ≤ 0) (hg : gl.gauge = .coulomb → gl.c1 = 0) (inp : Nat → Nat → Site 4) :
    ((solver = none → gl.gauge = .feynman ∧ gl.c1 = 0) ↔ ∃ out, MulBySqrt solver sqrtf g X gl inp out) ∧
    ∀ mid out out', MulBySqrt solver sqrtf g X gl inp mid → MulBySqrt solver sqrtf g X gl mid out → MulByProp g X gl inp out' →
      ∀ r i, r < g.nranks → i < g.locVol → ∀ mu, out r i mu = (sqrtf g.glbVol : ℂ) ^ 2 / (g.glbVol : ℂ) * out' r i mu := by
  have hrep : Layouts.Represents g X (fun c => inp (getLoclxAndRankOfCoords g c).1 (getLoclxAndRankOfCoords g c).2) inp := by
    intro r i hr hi
    simp only [(coordTable_of g ok X hX r i hr hi).2]
  refine ⟨⟨fun hn => ?_, ?_⟩, ?_⟩
  · obtain ⟨⟨p, hp⟩, hp'⟩ := C55_to_momentum_partial g ok X hX hd gl.bc true true _ inp hrep
    choose R hR using fun n => sqrt_any solver hs g gl hc hg hn n
    have hq : ∃ q, SqrtMom solver g X gl p q := ⟨fun r i => fun mu => ∑ nu, (R (X r i) mu nu : ℂ) * p r i nu, fun ⟨h1, h2⟩ => by
        obtain ⟨h3, h4⟩ := hn h1
        rcases h2 with h2 | h2
        · exact h2 h3
        · exact h2 h4, fun r i hr hi => by
      beta_reduce
      rw [(hR (X r i)).1.2, Option.bind_some, (hR (X r i)).2 _ (hR (X r i)).1.2]⟩
    obtain ⟨q, hq⟩ := hq
    obtain ⟨psi', hpsi'⟩ : ∃ psi', Layouts.Represents g X psi' (scaleCancel X gl (sqrtf g.glbVol) q) :=
      ⟨fun c => scaleCancel X gl (sqrtf g.glbVol) q (getLoclxAndRankOfCoords g c).1 (getLoclxAndRankOfCoords g c).2, fun r i hr hi => by
        simp only [(coordTable_of g ok X hX r i hr hi).2]⟩
    obtain ⟨⟨out, ho⟩, -⟩ := C55_to_position_partial g ok X hX hd gl.bc true true psi' _ hpsi'
    exact ⟨out, p, q, hp, hq, ho⟩
  · rintro ⟨out, p, q, -, ⟨h, -⟩, -⟩ hn
    by_contra hc'
    refine h ⟨hn, ?_⟩
    by_contra h2
    push_neg at h2
    exact hc' h2
  · intro mid out out' h1 h2 h3 r i hr hi mu
    have hn : solver = none → gl.gauge = .feynman ∧ gl.c1 = 0 := fun hn => by
      obtain ⟨p, q, -, ⟨h, -⟩, -⟩ := h1
      by_contra hc'
      refine h ⟨hn, ?_⟩
      by_contra h2
      push_neg at h2
      exact hc' h2
    choose R hR using fun n => sqrt_any solver hs g gl hc hg hn n
    have a := sqrt_conv solver sqrtf g ok X hX hd gl R hR _ inp mid hrep h1
    have b := sqrt_conv solver sqrtf g ok X hX hd gl R hR _ mid out a h2
    have c := mul_conv g ok X hX hd gl _ (fun n _ => (hR n).1.2) _ inp out' hrep h3
    rw [b r i hr hi, c r i hr hi, conv_comp g ok, glbVol_vol]
    rw [show conv g.L gl.bc (fun n => (sqrtf (vol g.L) : ℂ) • (R n).map Complex.ofReal * (sqrtf (vol g.L) : ℂ) • (R n).map Complex.ofReal) =
      conv g.L gl.bc (fun n => ((sqrtf (vol g.L) : ℂ) ^ 2) • ((R n * R n).map Complex.ofReal)) from by
        congr 1; funext n
        rw [Matrix.smul_mul, Matrix.mul_smul, smul_smul, pow_two]
        congr 1
        ext mu nu
        simp [Matrix.mul_apply]]
    rw [conv_smul, conv_smul]
    have := vol_ne g ok
    field_simp

end Nissa.Phot
