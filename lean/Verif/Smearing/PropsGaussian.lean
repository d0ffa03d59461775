import Verif.Smearing.Gaussian
import Verif.Stencil.Lattice
import Verif.Stencil.Paths
import Mathlib.Analysis.Convex.Function
import Mathlib.Analysis.Convex.Mul
import Mathlib.Analysis.Normed.Module.Convex

/-! # C59: gaussian smearing -/

set_option linter.all false

namespace Nissa.Gsm
open Nissa.Lx Nissa.Sten Nissa.Gauge Matrix
open Nissa.Su3f (M3)

variable {I : Type}

section
variable {g : Geo} (ok : g.Ok)
include ok

theorem turn_eq (ji : Nat) (jq : Quad) (jv : CV I) (kappa : Dir → ℝ) (conf : Nat → Nat → Quad) (v : Nat → Nat → CV I) {x : Coords} (hx : x ∈ box g.L) :
    glob g (smearTurn g ji jq jv kappa conf v) x = avg g kappa (glob g conf) (glob g v) x := by
  obtain ⟨rk, X, h1, h2, hr, hX, hG⟩ := lxSite ok hx
  rw [hG]
  unfold smearTurn avg apply_kappa_H
  simp only [hopAdd, List.foldl, Fin.sum_univ_three]
  simp only [mem_here ok jq conf hr h2 hX, mem_dw ok jq ji conf hr h2 hX, mem_up ok jv ji v hr h2 hX, mem_dw ok jv ji v hr h2 hX]
  rw [hG v, zero_add]
  rfl

theorem avg_congr (kappa : Dir → ℝ) (U U' : Coords → Quad) (v w : Coords → CV I) (hU : ∀ x ∈ box g.L, U x = U' x) (h : ∀ x ∈ box g.L, v x = w x) {x : Coords} (hx : x ∈ box g.L) :
    avg g kappa U v x = avg g kappa U' w x := by
  unfold avg
  rw [h x hx, hU x hx]
  congr 2
  refine Finset.sum_congr rfl fun i _ => ?_
  rw [h _ (tshift_mem_box ok hx _ _), h _ (tshift_mem_box ok hx _ _), hU _ (tshift_mem_box ok hx _ _)]

theorem iter_congr (kappa : Dir → ℝ) (U U' : Coords → Quad) (v w : Coords → CV I) (hU : ∀ x ∈ box g.L, U x = U' x) (h : ∀ x ∈ box g.L, v x = w x) (n : Nat) :
    ∀ x ∈ box g.L, (avg g kappa U)^[n] v x = (avg g kappa U')^[n] w x := by
  induction n generalizing v w with
  | zero => exact h
  | succ n ih =>
    rw [Function.iterate_succ_apply, Function.iterate_succ_apply]
    exact ih _ _ fun x hx => avg_congr ok kappa U U' v w hU h hx

/-- C59: the smearing of any number of iterations, on any grid of ranks, is the repeated average of each site with its parallel transported
spatial neighbours -/
theorem C59_smearing (ji : Nat) (jq : Quad) (jv : CV I) (origi : Nat → Nat → CV I) (conf : Nat → Nat → Quad) (kappa : Dir → ℝ) (niter : Int) :
    ∀ x ∈ box g.L, glob g (gaussian_smearing g ji jq jv origi conf kappa niter) x = (avg g kappa (glob g conf))^[niter.toNat] (glob g origi) x := by
  unfold gaussian_smearing
  split
  · rename_i h
    have : niter.toNat = 0 := by omega
    intro x _
    rw [this]; rfl
  · have key : ∀ n : Nat, ∀ x ∈ box g.L, glob g ((List.range n).foldl (fun temp _ => smearTurn g ji jq jv kappa conf temp) origi) x =
        (avg g kappa (glob g conf))^[n] (glob g origi) x := by
      intro n
      induction n with
      | zero => intro x _; rfl
      | succ n ih =>
        intro x hx
        rw [List.range_succ, List.foldl_append, Function.iterate_succ_apply']
        simp only [List.foldl_cons, List.foldl_nil]
        rw [turn_eq ok ji jq jv kappa conf _ hx]
        exact avg_congr ok kappa _ _ _ _ (fun _ _ => rfl) ih hx
    exact key _

/-- C59: smearing `n` times and then `m` is smearing `n+m` times -/
theorem C59_compose (ji ji' ji'' : Nat) (jq jq' jq'' : Quad) (jv jv' jv'' : CV I) (origi : Nat → Nat → CV I) (conf : Nat → Nat → Quad) (kappa : Dir → ℝ) (n m : Nat) :
    ∀ x ∈ box g.L, glob g (gaussian_smearing g ji jq jv (gaussian_smearing g ji' jq' jv' origi conf kappa n) conf kappa m) x =
      glob g (gaussian_smearing g ji'' jq'' jv'' origi conf kappa (n + m : Nat)) x := by
  intro x hx
  rw [C59_smearing ok _ _ _ _ _ _ _ x hx, C59_smearing ok _ _ _ _ _ _ _ x hx]
  simp only [Int.toNat_natCast]
  rw [Nat.add_comm n m, Function.iterate_add_apply]
  exact iter_congr ok kappa _ _ _ _ (fun _ _ => rfl) (fun y hy => by rw [C59_smearing ok _ _ _ _ _ _ _ y hy]; simp) m x hx

theorem tshift_time (x : Coords) (i : Fin 3) (d : Int) : tshift g x i.succ d 0 = x 0 := by
  unfold tshift
  exact Function.update_of_ne (Fin.succ_ne_zero i).symm _ _

/-- C59: a time slice of the result depends only on the field and on the spatial links of that time slice -/
theorem C59_timeslice (kappa : Dir → ℝ) (t : Nat) (U U' : Coords → Quad) (v w : Coords → CV I) (hU : ∀ x ∈ box g.L, x 0 = t → ∀ i : Fin 3, U x i.succ = U' x i.succ)
    (h : ∀ x ∈ box g.L, x 0 = t → v x = w x) (n : Nat) : ∀ x ∈ box g.L, x 0 = t → (avg g kappa U)^[n] v x = (avg g kappa U')^[n] w x := by
  induction n generalizing v w with
  | zero => exact h
  | succ n ih =>
    rw [Function.iterate_succ_apply, Function.iterate_succ_apply]
    refine ih _ _ fun x hx ht => ?_
    unfold avg
    rw [h x hx ht]
    congr 2
    refine Finset.sum_congr rfl fun i _ => ?_
    have t1 : tshift g x i.succ 1 0 = t := by rw [tshift_time ok, ht]
    have t2 : tshift g x i.succ (-1) 0 = t := by rw [tshift_time ok, ht]
    rw [h _ (tshift_mem_box ok hx _ _) t1, h _ (tshift_mem_box ok hx _ _) t2, hU x hx ht, hU _ (tshift_mem_box ok hx _ _) t2]

theorem avg_covariant (kappa : Dir → ℝ) (G : Coords → M3) (hG : AllUnitary g G) (U : Coords → Quad) (v : Coords → CV I) {x : Coords} (hx : x ∈ box g.L) :
    avg g kappa (transformed g G U) (fun x => G x * v x) x = G x * avg g kappa U v x := by
  unfold avg transformed
  rw [Matrix.mul_smul, Matrix.mul_add, Matrix.mul_sum]
  congr 2
  refine Finset.sum_congr rfl fun i _ => ?_
  have b1 := tshift_mem_box ok hx i.succ 1
  have b2 := tshift_mem_box ok hx i.succ (-1)
  rw [show tshift g (tshift g x i.succ (-1)) i.succ 1 = x from by
    have := Nissa.Paths.tshift_back ok hx i.succ (-1) (.inr rfl); rwa [neg_neg] at this]
  rw [Matrix.mul_smul, Matrix.mul_add]
  congr 2
  · rw [Matrix.mul_assoc (G x * U x i.succ), ← Matrix.mul_assoc _ (G _), hG _ b1, Matrix.one_mul, Matrix.mul_assoc]
  · rw [conjTranspose_mul, conjTranspose_mul, conjTranspose_conjTranspose]
    rw [Matrix.mul_assoc (G x), Matrix.mul_assoc _ _ (G _ * _), ← Matrix.mul_assoc _ (G _), hG _ b2, Matrix.one_mul]

/-- C59: smearing is covariant: transforming links and source rotates the smeared source -/
theorem C59_covariant (kappa : Dir → ℝ) (G : Coords → M3) (hG : AllUnitary g G) (U : Coords → Quad) (v : Coords → CV I) (n : Nat) :
    ∀ x ∈ box g.L, (avg g kappa (transformed g G U))^[n] (fun x => G x * v x) x = G x * (avg g kappa U)^[n] v x := by
  induction n generalizing v with
  | zero => intro x _; rfl
  | succ n ih =>
    intro x hx
    rw [Function.iterate_succ_apply, Function.iterate_succ_apply, ← ih _ x hx]
    exact iter_congr ok kappa _ _ _ _ (fun _ _ => rfl) (fun y hy => avg_covariant ok kappa G hG U v hy) n x hx

variable [Fintype I]

theorem dot_congr (y y' v v' : Coords → CV I) (hy : ∀ x ∈ box g.L, y x = y' x) (hv : ∀ x ∈ box g.L, v x = v' x) : dot (box g.L) y v = dot (box g.L) y' v' :=
  Finset.sum_congr rfl fun x hx => by rw [hy x hx, hv x hx]

theorem avg_hermitian (kappa : Dir → ℝ) (U : Coords → Quad) (y v : Coords → CV I) : dot (box g.L) y (avg g kappa U v) = dot (box g.L) (avg g kappa U y) v := by
  unfold dot avg
  simp only [Matrix.mul_smul, Matrix.mul_add, conjTranspose_smul, conjTranspose_add, Matrix.smul_mul, Matrix.add_mul, trace_smul, trace_add, conjTranspose_sum,
    Matrix.mul_sum, Matrix.sum_mul, trace_sum, star_trivial]
  rw [← Finset.smul_sum, ← Finset.smul_sum]
  refine congrArg (fun z : ℂ => (1 / (1 + 2 * (kappa 1 + kappa 2 + kappa 3))) • z) ?_
  rw [Finset.sum_add_distrib, Finset.sum_add_distrib]
  refine congrArg (fun z : ℂ => _ + z) ?_
  rw [Finset.sum_comm, Finset.sum_comm (s := box g.L)]
  refine Finset.sum_congr rfl fun i _ => ?_
  rw [← Finset.smul_sum, ← Finset.smul_sum]
  refine congrArg (fun z : ℂ => kappa i.succ • z) ?_
  rw [Finset.sum_add_distrib, Finset.sum_add_distrib]
  rw [sum_shift ok i.succ (.inl rfl) (fun c d => ((y c)ᴴ * (U c i.succ * v d)).trace)]
  rw [sum_shift ok i.succ (.inr rfl) (fun c d => ((y c)ᴴ * ((U d i.succ)ᴴ * v d)).trace)]
  rw [neg_neg, add_comm]
  congr 1
  · refine Finset.sum_congr rfl fun c _ => ?_
    rw [conjTranspose_mul, Matrix.mul_assoc]
  · refine Finset.sum_congr rfl fun c _ => ?_
    rw [conjTranspose_mul, conjTranspose_conjTranspose, Matrix.mul_assoc]

/-- C59: smearing is hermitian, so that smearing the sink is the same as smearing the source -/
theorem C59_hermitian (kappa : Dir → ℝ) (U : Coords → Quad) (y v : Coords → CV I) (n : Nat) :
    dot (box g.L) y ((avg g kappa U)^[n] v) = dot (box g.L) ((avg g kappa U)^[n] y) v := by
  induction n generalizing v y with
  | zero => rfl
  | succ n ih => rw [Function.iterate_succ_apply, ih, avg_hermitian ok, Function.iterate_succ_apply' (avg g kappa U) n y]

omit ok in
theorem dot_self (s : Finset Coords) (v : Coords → CV I) : (dot s v v).re = ∑ x ∈ s, ∑ i, ∑ j, ‖v x i j‖ ^ 2 := by
  unfold dot
  rw [Complex.re_sum]
  refine Finset.sum_congr rfl fun x _ => ?_
  simp only [Matrix.trace, Matrix.diag, Matrix.mul_apply, conjTranspose_apply, Complex.re_sum]
  rw [Finset.sum_comm]
  refine Finset.sum_congr rfl fun i _ => Finset.sum_congr rfl fun j _ => ?_
  rw [Complex.star_def, ← Complex.normSq_eq_conj_mul_self, Complex.ofReal_re, Complex.normSq_eq_norm_sq]

omit ok in
theorem sq_unitary (W : M3) (h : Wᴴ * W = 1) (m : CV I) : ∑ i, ∑ j, ‖(W * m) i j‖ ^ 2 = ∑ i, ∑ j, ‖m i j‖ ^ 2 := by
  have e : ∀ m : CV I, ∑ i, ∑ j, ‖m i j‖ ^ 2 = ((mᴴ * m).trace).re := by
    intro m
    have := dot_self ({fun _ => 0} : Finset Coords) (fun _ => m)
    unfold dot at this
    rw [Finset.sum_singleton, Finset.sum_singleton] at this
    exact this.symm
  rw [e, e, conjTranspose_mul, Matrix.mul_assoc, ← Matrix.mul_assoc _ W, h, Matrix.one_mul]

omit ok in
/-- convexity of the square -/
theorem jensen {K : Type} [Fintype K] (w : K → ℝ) (h0 : ∀ k, 0 ≤ w k) (h1 : ∑ k, w k = 1) (z : K → CV I) :
    ∑ i, ∑ j, ‖(∑ k, w k • z k) i j‖ ^ 2 ≤ ∑ k, w k * ∑ i, ∑ j, ‖z k i j‖ ^ 2 := by
  have hc : ConvexOn ℝ Set.univ (fun z : ℂ => ‖z‖ ^ 2) := (convexOn_norm convex_univ).pow (fun _ _ => norm_nonneg _) 2
  simp only [Finset.mul_sum]
  rw [Finset.sum_comm (s := (Finset.univ : Finset K))]
  refine Finset.sum_le_sum (fun i _ => ?_)
  rw [Finset.sum_comm (s := (Finset.univ : Finset K))]
  refine Finset.sum_le_sum (fun j _ => ?_)
  have := hc.map_sum_le (t := Finset.univ) (w := w) (p := fun k => z k i j) (fun k _ => h0 k) h1 (fun _ _ => Set.mem_univ _)
  simp only [smul_eq_mul] at this
  refine le_trans (le_of_eq ?_) this
  rw [Matrix.sum_apply]
  rfl

theorem avg_contract (kappa : Dir → ℝ) (hk : ∀ i : Fin 3, 0 ≤ kappa i.succ) (U : Coords → Quad) (hU : ∀ x ∈ box g.L, ∀ mu, (U x mu)ᴴ * U x mu = 1) (v : Coords → CV I) :
    (dot (box g.L) (avg g kappa U v) (avg g kappa U v)).re ≤ (dot (box g.L) v v).re := by
  have hU' : ∀ x ∈ box g.L, ∀ mu, ((U x mu)ᴴ)ᴴ * (U x mu)ᴴ = 1 := fun x hx mu => by
    rw [conjTranspose_conjTranspose]; exact mul_eq_one_comm.1 (hU x hx mu)
  have k1 := hk 0; have k2 := hk 1; have k3 := hk 2
  simp only [Fin.succ_zero_eq_one, Fin.succ_one_eq_two] at k1 k2
  have k3 : 0 ≤ kappa 3 := k3
  have hpos : 0 < 1 + 2 * (kappa 1 + kappa 2 + kappa 3) := by linarith
  set nf := 1 / (1 + 2 * (kappa 1 + kappa 2 + kappa 3)) with hnf
  have hnf0 : 0 < nf := by rw [hnf]; positivity
  have hnf1 : nf * (1 + 2 * (kappa 1 + kappa 2 + kappa 3)) = 1 := by rw [hnf]; field_simp
  let w : Option (Fin 3 × Bool) → ℝ := fun k => match k with | none => nf | some (i, _) => nf * kappa i.succ
  let z : Coords → Option (Fin 3 × Bool) → CV I := fun x k => match k with
    | none => v x
    | some (i, true) => U x i.succ * v (tshift g x i.succ 1)
    | some (i, false) => (U (tshift g x i.succ (-1)) i.succ)ᴴ * v (tshift g x i.succ (-1))
  have hw0 : ∀ k, 0 ≤ w k := by
    rintro (_ | ⟨i, b⟩)
    · exact hnf0.le
    · exact mul_nonneg hnf0.le (hk i)
  have hw1 : ∑ k, w k = 1 := by
    rw [Fintype.sum_option, Fintype.sum_prod_type]
    simp only [w, Fintype.sum_bool, Fin.sum_univ_three]
    rw [← hnf1]
    simp only [Fin.succ_zero_eq_one, Fin.succ_one_eq_two]
    show nf + (nf * kappa 1 + nf * kappa 1 + (nf * kappa 2 + nf * kappa 2) + (nf * kappa 3 + nf * kappa 3)) = _
    ring
  have hav : ∀ x, avg g kappa U v x = ∑ k, w k • z x k := by
    intro x
    rw [Fintype.sum_option, Fintype.sum_prod_type]
    simp only [w, z, Fintype.sum_bool]
    unfold avg
    rw [smul_add, Finset.smul_sum]
    congr 1
    refine Finset.sum_congr rfl fun i _ => ?_
    rw [smul_smul, smul_add]
  rw [dot_self, dot_self]
  calc ∑ x ∈ box g.L, ∑ i, ∑ j, ‖avg g kappa U v x i j‖ ^ 2 ≤ ∑ x ∈ box g.L, ∑ k, w k * ∑ i, ∑ j, ‖z x k i j‖ ^ 2 := by
        refine Finset.sum_le_sum fun x _ => ?_
        rw [hav]
        exact jensen w hw0 hw1 (z x)
    _ = ∑ k, w k * ∑ x ∈ box g.L, ∑ i, ∑ j, ‖v x i j‖ ^ 2 := by
        rw [Finset.sum_comm]
        refine Finset.sum_congr rfl fun k _ => ?_
        rw [← Finset.mul_sum]
        congr 1
        rcases k with _ | ⟨i, b | b⟩
        · rfl
        · simp only [z]
          rw [Finset.sum_congr rfl (g := fun x => ∑ i', ∑ j, ‖v (tshift g x i.succ (-1)) i' j‖ ^ 2) (fun x hx => sq_unitary _ (hU' _ (tshift_mem_box ok hx _ _) _) _)]
          exact sum_shift ok i.succ (.inr rfl) (fun _ d => ∑ i', ∑ j, ‖v d i' j‖ ^ 2)
        · simp only [z]
          rw [Finset.sum_congr rfl (g := fun x => ∑ i', ∑ j, ‖v (tshift g x i.succ 1) i' j‖ ^ 2) (fun x hx => sq_unitary _ (hU _ hx _) _)]
          exact sum_shift ok i.succ (.inl rfl) (fun _ d => ∑ i', ∑ j, ‖v d i' j‖ ^ 2)
    _ = _ := by rw [← Finset.sum_mul, hw1, one_mul]

/-- C59: on unitary links and with non negative coefficients smearing never makes a field longer, however many iterations -/
theorem C59_contraction (kappa : Dir → ℝ) (hk : ∀ i : Fin 3, 0 ≤ kappa i.succ) (U : Coords → Quad) (hU : ∀ x ∈ box g.L, ∀ mu, (U x mu)ᴴ * U x mu = 1) (v : Coords → CV I) (n : Nat) :
    (dot (box g.L) ((avg g kappa U)^[n] v) ((avg g kappa U)^[n] v)).re ≤ (dot (box g.L) v v).re := by
  induction n generalizing v with
  | zero => exact le_refl _
  | succ n ih =>
    rw [Function.iterate_succ_apply]
    exact (ih _).trans (avg_contract ok kappa hk U hU v)

omit [Fintype I] in
/-- C59: normalisation: with trivial links the sum of the field over the lattice does not change -/
theorem C59_normalisation (kappa : Dir → ℝ) (hn : 1 + 2 * (kappa 1 + kappa 2 + kappa 3) ≠ 0) (U : Coords → Quad) (hU : ∀ x ∈ box g.L, ∀ mu, U x mu = 1) (v : Coords → CV I) (n : Nat) :
    ∑ x ∈ box g.L, (avg g kappa U)^[n] v x = ∑ x ∈ box g.L, v x := by
  induction n generalizing v with
  | zero => rfl
  | succ n ih =>
    rw [Function.iterate_succ_apply, ih]
    have : ∀ x ∈ box g.L, avg g kappa U v x = (1 / (1 + 2 * (kappa 1 + kappa 2 + kappa 3))) • (v x + ∑ i : Fin 3, kappa i.succ • (v (tshift g x i.succ 1) + v (tshift g x i.succ (-1)))) := by
      intro x hx
      unfold avg
      congr 2
      refine Finset.sum_congr rfl fun i _ => ?_
      rw [hU x hx, hU _ (tshift_mem_box ok hx _ _), conjTranspose_one, Matrix.one_mul, Matrix.one_mul]
    rw [Finset.sum_congr rfl this, ← Finset.smul_sum, Finset.sum_add_distrib, Finset.sum_comm]
    have hs : ∀ i : Fin 3, ∑ x ∈ box g.L, kappa i.succ • (v (tshift g x i.succ 1) + v (tshift g x i.succ (-1))) = (2 * kappa i.succ) • ∑ x ∈ box g.L, v x := by
      intro i
      rw [← Finset.smul_sum, Finset.sum_add_distrib, sum_shift ok i.succ (.inl rfl) (fun _ d => v d), sum_shift ok i.succ (.inr rfl) (fun _ d => v d), ← two_smul ℝ, smul_smul, mul_comm]
    simp only [hs]
    rw [Fin.sum_univ_three, ← add_smul, ← add_smul, show ∀ (a : ℝ) (m : CV I), m + a • m = (1 + a) • m from fun a m => by rw [add_smul, one_smul], smul_smul]
    simp only [Fin.succ_zero_eq_one, Fin.succ_one_eq_two]
    rw [show (Fin.succ 2 : Fin 4) = 3 from rfl, show 1 + (2 * kappa 1 + 2 * kappa 2 + 2 * kappa 3) = 1 + 2 * (kappa 1 + kappa 2 + kappa 3) by ring, one_div, inv_mul_cancel₀ hn, one_smul]

end

end Nissa.Gsm
