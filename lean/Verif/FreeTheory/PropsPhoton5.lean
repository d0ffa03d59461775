import Verif.FreeTheory.PropsPhoton4
import Verif.Geometry.SumSites

/-! # C55: passing to momentum space and back -/

set_option linter.all false

namespace Nissa.Phot
open Nissa.Lx Nissa.Free Nissa.Fft Matrix Complex

/-- phase of the plane wave of momentum `pi(2n+bc)/L`, in the middle of the link leaving `x` in direction `mu` -/
noncomputable def arg (L : Coords) (bc : Dir → ℝ) (n x : Coords) (mu : Dir) : ℝ :=
  ∑ nu, lattMom (n nu) (bc nu) (L nu) * ((x nu : ℝ) + if nu = mu then 1 / 2 else 0)

/-- the plane wave, of given sign -/
noncomputable def wave (L : Coords) (bc : Dir → ℝ) (s : Int) (n x : Coords) (mu : Dir) : ℂ := Complex.exp (I * ((s * arg L bc n x mu : ℝ) : ℂ))

theorem phase_exp (a : ℝ) : phase a = Complex.exp (I * (a : ℂ)) := by
  rw [mul_comm, Complex.exp_mul_I, ← Complex.ofReal_cos, ← Complex.ofReal_sin]
  unfold phase
  apply Complex.ext <;> simp [-Complex.ofReal_cos, -Complex.ofReal_sin]

theorem root_exp (s : Int) (n a b : Nat) : root s n ^ (a * b) = Complex.exp (I * ((s * (2 * Real.pi * a * b / n) : ℝ) : ℂ)) := by
  unfold root
  rw [← Complex.exp_int_mul, ← Complex.exp_nat_mul]
  congr 1; push_cast; ring

theorem sum_box (L : Coords) (f : Coords → ℂ) : ∑ x3 ∈ Finset.range (L 3), ∑ x2 ∈ Finset.range (L 2), ∑ x1 ∈ Finset.range (L 1), ∑ x0 ∈ Finset.range (L 0), f ![x0, x1, x2, x3] =
    ∑ x ∈ box L, f x := by
  simp only [← Finset.sum_product']
  refine Finset.sum_bij' (i := fun p _ => ![p.2.2.2, p.2.2.1, p.2.1, p.1]) (j := fun c _ => (c 3, c 2, c 1, c 0)) ?_ ?_ ?_ ?_ ?_
  · intro p hp
    simp only [Finset.mem_product, Finset.mem_range] at hp
    rw [mem_box]; intro mu
    fin_cases mu
    · exact hp.2.2.2
    · exact hp.2.2.1
    · exact hp.2.1
    · exact hp.1
  · intro c hc
    have := mem_box.1 hc
    simp only [Finset.mem_product, Finset.mem_range]
    exact ⟨this 3, this 2, this 1, this 0⟩
  · intro p _; rfl
  · intro c _; funext mu; fin_cases mu <;> rfl
  · intro p _; rfl

/-- the sum on all the sites -/
theorem dft_box {ncpp : Nat} (L : Coords) (s : Int) (phi : Coords → Site ncpp) (p : Coords) (ic : Fin ncpp) :
    dftSel L s (fun _ => true) phi p ic = ∑ x ∈ box L, Complex.exp (I * ((s * ∑ nu, 2 * Real.pi * p nu * x nu / L nu : ℝ) : ℂ)) * phi x ic := by
  rw [C36_all_directions, ← sum_box]
  unfold dftAll
  refine Finset.sum_congr rfl fun x3 _ => Finset.sum_congr rfl fun x2 _ => Finset.sum_congr rfl fun x1 _ => Finset.sum_congr rfl fun x0 _ => ?_
  rw [root_exp, root_exp, root_exp, root_exp, ← Complex.exp_add, ← Complex.exp_add, ← Complex.exp_add]
  congr 2
  rw [Fin.sum_univ_four]
  show _ = I * (((s : ℝ) * (2 * Real.pi * (p 0) * (x0 : ℝ) / (L 0) + 2 * Real.pi * (p 1) * (x1 : ℝ) / (L 1) + 2 * Real.pi * (p 2) * (x2 : ℝ) / (L 2) + 2 * Real.pi * (p 3) * (x3 : ℝ) / (L 3)) : ℝ) : ℂ)
  push_cast; ring

theorem points_vol (g : Geo) : (points g.L (fun _ => true)) = g.L 0 * g.L 1 * g.L 2 * g.L 3 := by simp [points]

/-- argument of the three phases together -/
theorem args_sum (L : Coords) (s : Int) (bc : Dir → ℝ) (incl : Bool) (n x : Coords) (mu : Dir) :
    (s : ℝ) * ∑ nu, 2 * Real.pi * n nu * x nu / L nu + stepArg L (fun _ => true) (s * num incl) bc x + halfArg L (fun _ => true) s bc incl n mu =
      s * arg L (fun mu => bc mu * num incl) n x mu := by
  unfold stepArg halfArg arg lattMom
  simp only [dirs, List.foldl_cons, List.foldl_nil, Fin.sum_univ_four]
  cases incl <;> fin_cases mu <;> simp [num] <;> ring

/-- C55: passing to momentum space always ends and gives the normalised sum on the sites with the plane waves in the middle of the links; `sink` selects the sign, `incl` whether the momentum
includes the boundary conditions -/
theorem C55_to_momentum_partial (g : Geo) (ok : g.Ok) (X : Nat → Nat → Coords) (hX : CoordTable g X) (hd : ∀ mu, DirOk g X mu) (bc : Dir → ℝ) (sink incl : Bool)
    (psi : Coords → Site 4) (inp : Nat → Nat → Site 4) (hinp : Layouts.Represents g X psi inp) :
    (∃ out, XToMom g X (fun _ => true) bc sink incl inp out) ∧
    ∀ out, XToMom g X (fun _ => true) bc sink incl inp out →
      Layouts.Represents g X (fun n mu => (1 / (g.L 0 * g.L 1 * g.L 2 * g.L 3 : ℕ) : ℂ) * ∑ x ∈ box g.L, wave g.L (fun mu => bc mu * num incl) (if sink then -1 else 1) n x mu * psi x mu) out := by
  have hr : Layouts.Represents g X (fun x mu => psi x mu * phase (stepArg g.L (fun _ => true) (signP sink * num incl) bc x))
      (fun r i mu => inp r i mu * phase (stepArg g.L (fun _ => true) (signP sink * num incl) bc (X r i))) := fun r i h1 h2 => by
    funext mu; beta_reduce; rw [hinp r i h1 h2]
  obtain ⟨⟨f, h1⟩, h2⟩ := C36_fft4d_partial g ok X hX (fun _ => true) (signP sink) true (fun mu _ => hd mu) _ _ hr
  refine ⟨⟨_, f, h1, rfl⟩, ?_⟩
  rintro out ⟨f', h3, rfl⟩ r i hr' hi
  funext mu
  have := h2 f' h3 r i hr' hi
  simp only [this, if_true]
  rw [dft_box, points_vol, phase_exp, one_div, div_eq_inv_mul, mul_assoc, Finset.sum_mul]
  congr 1
  refine Finset.sum_congr rfl fun x _ => ?_
  have hs : (if sink then (-1 : Int) else 1) = signP sink := rfl
  rw [hs, wave, phase_exp, ← args_sum]
  push_cast
  rw [mul_add, mul_add, Complex.exp_add, Complex.exp_add]
  ring

/-- C55: passing to position space always ends and gives the sum on the momenta -/
theorem C55_to_position_partial (g : Geo) (ok : g.Ok) (X : Nat → Nat → Coords) (hX : CoordTable g X) (hd : ∀ mu, DirOk g X mu) (bc : Dir → ℝ) (sink incl : Bool)
    (psi : Coords → Site 4) (inp : Nat → Nat → Site 4) (hinp : Layouts.Represents g X psi inp) :
    (∃ out, MomToX g X (fun _ => true) bc sink incl inp out) ∧
    ∀ out, MomToX g X (fun _ => true) bc sink incl inp out →
      Layouts.Represents g X (fun x mu => ∑ n ∈ box g.L, wave g.L (fun mu => bc mu * num incl) (if sink then 1 else -1) n x mu * psi n mu) out := by
  have hr : Layouts.Represents g X (fun n mu => psi n mu * phase (halfArg g.L (fun _ => true) (signX sink) bc incl n mu))
      (fun r i mu => inp r i mu * phase (halfArg g.L (fun _ => true) (signX sink) bc incl (X r i) mu)) := fun r i h1 h2 => by
    funext mu; beta_reduce; rw [hinp r i h1 h2]
  obtain ⟨⟨f, h1⟩, h2⟩ := C36_fft4d_partial g ok X hX (fun _ => true) (signX sink) false (fun mu _ => hd mu) _ _ hr
  refine ⟨⟨_, f, h1, rfl⟩, ?_⟩
  rintro out ⟨f', h3, rfl⟩ r i hr' hi
  funext mu
  have := h2 f' h3 r i hr' hi
  simp only [this, Bool.false_eq_true, if_false]
  rw [dft_box, phase_exp, Finset.sum_mul]
  refine Finset.sum_congr rfl fun n _ => ?_
  have hs : (if sink then (1 : Int) else -1) = signX sink := rfl
  have ha : (∑ nu, 2 * Real.pi * ((X r i) nu : ℝ) * (n nu) / g.L nu) = ∑ nu, 2 * Real.pi * (n nu) * ((X r i) nu : ℝ) / g.L nu := Finset.sum_congr rfl fun nu _ => by ring
  rw [hs, wave, phase_exp, ← args_sum, ha]
  push_cast
  rw [mul_add, mul_add, Complex.exp_add, Complex.exp_add]
  ring

/-! ### Orthogonality -/

theorem one_dim (s : Int) (hs : s = 1 ∨ s = -1) (l : Nat) (hl : 0 < l) (x y : Nat) (hx : x < l) (hy : y < l) :
    ∑ n ∈ Finset.range l, Complex.exp (I * ((s * (2 * Real.pi * n * ((x : ℝ) - y) / l) : ℝ) : ℂ)) = if x = y then (l : ℂ) else 0 := by
  obtain ⟨h1, h2⟩ := root_pow s hs l hl
  rw [← orthogonality (root s l) l hl h1 x y hx hy, ← h2]
  refine Finset.sum_congr rfl fun n _ => ?_
  rw [root_exp, root_exp, ← Complex.exp_add]
  congr 1; push_cast; ring

theorem wave_mul (L : Coords) (bc bc' : Dir → ℝ) (s : Int) (n m x y : Coords) (mu : Dir) :
    wave L bc s n x mu * wave L bc' (-s) m y mu = Complex.exp (I * ((s * (arg L bc n x mu - arg L bc' m y mu) : ℝ) : ℂ)) := by
  unfold wave
  rw [← Complex.exp_add]
  congr 1; push_cast; ring

/-- the plane waves form a complete set -/
theorem wave_complete (L : Coords) (hL : ∀ mu, 0 < L mu) (bc : Dir → ℝ) (s : Int) (hs : s = 1 ∨ s = -1) (x y : Coords) (hx : x ∈ box L) (hy : y ∈ box L) (mu : Dir) :
    ∑ n ∈ box L, wave L bc s n x mu * wave L bc (-s) n y mu = if x = y then ((L 0 * L 1 * L 2 * L 3 : ℕ) : ℂ) else 0 := by
  have e : ∀ n, wave L bc s n x mu * wave L bc (-s) n y mu = ∏ nu, (Complex.exp (I * ((s * (Real.pi * bc nu * ((x nu : ℝ) - y nu) / L nu) : ℝ) : ℂ)) *
      Complex.exp (I * ((s * (2 * Real.pi * n nu * ((x nu : ℝ) - y nu) / L nu) : ℝ) : ℂ))) := fun n => by
    rw [wave_mul]
    simp only [← Complex.exp_add]
    rw [← Complex.exp_sum]
    congr 1
    unfold arg lattMom
    simp only [Fin.sum_univ_four]
    push_cast; ring
  rw [Finset.sum_congr rfl fun n _ => e n]
  rw [show box L = Fintype.piFinset (fun mu => Finset.range (L mu)) from rfl,
    ← Finset.prod_univ_sum (fun nu => Finset.range (L nu)) (fun nu k => Complex.exp (I * ((s * (Real.pi * bc nu * ((x nu : ℝ) - y nu) / L nu) : ℝ) : ℂ)) *
      Complex.exp (I * ((s * (2 * Real.pi * k * ((x nu : ℝ) - y nu) / L nu) : ℝ) : ℂ)))]
  have e2 : ∀ nu, ∑ k ∈ Finset.range (L nu), (Complex.exp (I * ((s * (Real.pi * bc nu * ((x nu : ℝ) - y nu) / L nu) : ℝ) : ℂ)) *
      Complex.exp (I * ((s * (2 * Real.pi * k * ((x nu : ℝ) - y nu) / L nu) : ℝ) : ℂ))) = if x nu = y nu then (L nu : ℂ) else 0 := fun nu => by
    rw [← Finset.mul_sum, one_dim s hs (L nu) (hL nu) _ _ (mem_box.1 hx nu) (mem_box.1 hy nu)]
    by_cases h : x nu = y nu
    · rw [if_pos h, h]; simp
    · rw [if_neg h, mul_zero]
  rw [Finset.prod_congr rfl fun nu _ => e2 nu]
  by_cases h : x = y
  · subst h
    simp only [if_true, Fin.prod_univ_four]
    push_cast; ring
  · rw [if_neg h]
    obtain ⟨nu, hn⟩ := Function.ne_iff.1 h
    exact Finset.prod_eq_zero (Finset.mem_univ nu) (if_neg hn)

/-- and they are orthogonal -/
theorem wave_orth (L : Coords) (hL : ∀ mu, 0 < L mu) (bc : Dir → ℝ) (s : Int) (hs : s = 1 ∨ s = -1) (n m : Coords) (hn : n ∈ box L) (hm : m ∈ box L) (mu : Dir) :
    ∑ x ∈ box L, wave L bc s n x mu * wave L bc (-s) m x mu = if n = m then ((L 0 * L 1 * L 2 * L 3 : ℕ) : ℂ) else 0 := by
  have e : ∀ x, wave L bc s n x mu * wave L bc (-s) m x mu = wave L (fun _ => 0) s x n mu * wave L (fun _ => 0) (-s) x m mu *
      Complex.exp (I * ((s * (Real.pi * ((n mu : ℝ) - m mu) / L mu - 0) : ℝ) : ℂ)) := fun x => by
    rw [wave_mul, wave_mul, ← Complex.exp_add]
    congr 1
    unfold arg lattMom
    simp only [Fin.sum_univ_four]
    fin_cases mu <;> simp <;> ring
  rw [Finset.sum_congr rfl fun x _ => e x, ← Finset.sum_mul, wave_complete L hL _ s hs n m hn hm]
  by_cases h : n = m
  · rw [if_pos h, h]; simp
  · rw [if_neg h, zero_mul]

/-- C55: passing to momentum space and back gives the initial field -/
theorem C55_passes_inverse_partial (g : Geo) (ok : g.Ok) (X : Nat → Nat → Coords) (hX : CoordTable g X) (hd : ∀ mu, DirOk g X mu) (bc : Dir → ℝ) (sink incl : Bool)
    (inp mid out : Nat → Nat → Site 4) (r i : Nat) (hr : r < g.nranks) (hi : i < g.locVol) :
    (XToMom g X (fun _ => true) bc sink incl inp mid → MomToX g X (fun _ => true) bc sink incl mid out → out r i = inp r i) ∧
    (MomToX g X (fun _ => true) bc sink incl inp mid → XToMom g X (fun _ => true) bc sink incl mid out → out r i = inp r i) := by
  have hrep : Layouts.Represents g X (fun c => inp (getLoclxAndRankOfCoords g c).1 (getLoclxAndRankOfCoords g c).2) inp := by
    intro r i hr hi
    simp only [(coordTable_of g ok X hX r i hr hi).2]
  obtain ⟨hc, hci⟩ := coordTable_of g ok X hX r i hr hi
  have hV : ((g.L 0 * g.L 1 * g.L 2 * g.L 3 : ℕ) : ℂ) ≠ 0 := by
    have h0 := L_pos ok 0; have h1 := L_pos ok 1; have h2 := L_pos ok 2; have h3 := L_pos ok 3
    exact Nat.cast_ne_zero.2 (by positivity)
  constructor
  · intro h1 h2
    have a := (C55_to_momentum_partial g ok X hX hd bc sink incl _ inp hrep).2 mid h1
    have b := (C55_to_position_partial g ok X hX hd bc sink incl _ mid a).2 out h2 r i hr hi
    rw [b]
    funext mu
    simp only [Finset.mul_sum]
    rw [Finset.sum_comm]
    have e : ∀ y ∈ box g.L, ∑ n ∈ box g.L, wave g.L (fun mu => bc mu * num incl) (if sink then 1 else -1) n (X r i) mu *
        ((1 / ((g.L 0 * g.L 1 * g.L 2 * g.L 3 : ℕ) : ℂ)) * (wave g.L (fun mu => bc mu * num incl) (if sink then -1 else 1) n y mu *
          inp (getLoclxAndRankOfCoords g y).1 (getLoclxAndRankOfCoords g y).2 mu)) =
        if X r i = y then inp (getLoclxAndRankOfCoords g y).1 (getLoclxAndRankOfCoords g y).2 mu else 0 := fun y hy => by
      have hw := wave_complete g.L (fun mu => L_pos ok mu) (fun mu => bc mu * num incl) (if sink then 1 else -1) (by cases sink <;> simp) (X r i) y (mem_box.2 hc) hy mu
      have hs : (-(if sink then (1 : Int) else -1)) = if sink then -1 else 1 := by cases sink <;> rfl
      rw [hs] at hw
      have := congrArg (fun z => z * ((1 / ((g.L 0 * g.L 1 * g.L 2 * g.L 3 : ℕ) : ℂ)) * inp (getLoclxAndRankOfCoords g y).1 (getLoclxAndRankOfCoords g y).2 mu)) hw
      simp only [Finset.sum_mul] at this
      refine Eq.trans (Finset.sum_congr rfl fun n _ => by ring) (this.trans ?_)
      split
      · rw [← mul_assoc, mul_one_div_cancel hV, one_mul]
      · rw [zero_mul]
    rw [Finset.sum_congr rfl e, Finset.sum_ite_eq, if_pos (mem_box.2 hc), hci]
  · intro h1 h2
    have a := (C55_to_position_partial g ok X hX hd bc sink incl _ inp hrep).2 mid h1
    have b := (C55_to_momentum_partial g ok X hX hd bc sink incl _ mid a).2 out h2 r i hr hi
    rw [b]
    funext mu
    simp only [Finset.mul_sum]
    rw [Finset.sum_comm]
    have e : ∀ y ∈ box g.L, ∑ n ∈ box g.L, (1 / ((g.L 0 * g.L 1 * g.L 2 * g.L 3 : ℕ) : ℂ)) * (wave g.L (fun mu => bc mu * num incl) (if sink then -1 else 1) (X r i) n mu *
        (wave g.L (fun mu => bc mu * num incl) (if sink then 1 else -1) y n mu *
          inp (getLoclxAndRankOfCoords g y).1 (getLoclxAndRankOfCoords g y).2 mu)) =
        if X r i = y then inp (getLoclxAndRankOfCoords g y).1 (getLoclxAndRankOfCoords g y).2 mu else 0 := fun y hy => by
      have hw := wave_orth g.L (fun mu => L_pos ok mu) (fun mu => bc mu * num incl) (if sink then -1 else 1) (by cases sink <;> simp) (X r i) y (mem_box.2 hc) hy mu
      have hs : (-(if sink then (-1 : Int) else 1)) = if sink then 1 else -1 := by cases sink <;> rfl
      rw [hs] at hw
      have := congrArg (fun z => z * ((1 / ((g.L 0 * g.L 1 * g.L 2 * g.L 3 : ℕ) : ℂ)) * inp (getLoclxAndRankOfCoords g y).1 (getLoclxAndRankOfCoords g y).2 mu)) hw
      simp only [Finset.sum_mul] at this
      refine Eq.trans (Finset.sum_congr rfl fun n _ => by ring) (this.trans ?_)
      split
      · rw [← mul_assoc, mul_one_div_cancel hV, one_mul]
      · rw [zero_mul]
    rw [Finset.sum_congr rfl e, Finset.sum_ite_eq, if_pos (mem_box.2 hc), hci]

end Nissa.Phot
