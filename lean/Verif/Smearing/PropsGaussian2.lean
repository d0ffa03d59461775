import Verif.Smearing.PropsGaussian
import Verif.Smearing.PropsShift

/-! # Gaussian smearing: the polynomial version -/

set_option linter.all false

namespace Nissa.Gsm
open Nissa.Lx Nissa.Sten Nissa.Gauge Matrix
open Nissa.Su3f (M3)

variable {g : Geo} {I : Type}

theorem avg_smul (kappa : Dir → ℝ) (U : Coords → Quad) (c : ℝ) (v : Coords → CV I) : avg g kappa U (fun x => c • v x) = fun x => c • avg g kappa U v x := by
  funext x
  unfold avg
  simp only [Matrix.mul_smul, ← smul_add]
  rw [smul_comm c]
  congr 1
  rw [smul_add, Finset.smul_sum]
  congr 1
  refine Finset.sum_congr rfl fun i _ => ?_
  rw [smul_comm]

theorem iter_smul (kappa : Dir → ℝ) (U : Coords → Quad) (c : ℝ) (v : Coords → CV I) (n : Nat) : (avg g kappa U)^[n] (fun x => c • v x) = fun x => c • (avg g kappa U)^[n] v x := by
  induction n generalizing v with
  | zero => rfl
  | succ n ih => rw [Function.iterate_succ_apply, avg_smul, ih]; rfl

variable (ok : g.Ok)
include ok

/-- C59: the version with one coefficient smears the three space directions alike, and does not touch the time -/
theorem C59_isotropic (ji : Nat) (jq : Quad) (jv : CV I) (origi : Nat → Nat → CV I) (conf : Nat → Nat → Quad) (k : ℝ) (niter : Int) :
    ∀ x ∈ box g.L, glob g (gaussian_smearing_iso g ji jq jv origi conf k niter) x = (avg g (fun _ => k) (glob g conf))^[niter.toNat] (glob g origi) x := by
  intro x hx
  rw [gaussian_smearing_iso, C59_smearing ok _ _ _ _ _ _ _ x hx]
  have : avg (I := I) g ![0.0, k, k, k] (glob g conf) = avg g (fun _ => k) (glob g conf) := by
    funext v x
    unfold avg
    congr 2
  rw [this]

/-- C59: the version with a polynomial.  The coefficients multiply up: the term `i` comes with the product of the coefficients up to `i`. -/
theorem C59_polynomial (ji : Nat) (jq : Quad) (jv : CV I) (origi : Nat → Nat → CV I) (conf : Nat → Nat → Quad) (k : ℝ) (nterm : Nat) (hn : 0 < nterm) (coeff : Nat → ℝ) (exponent : Nat → Int)
    (h0 : 0 ≤ exponent 0) (hmono : ∀ i, i + 1 < nterm → exponent i ≤ exponent (i + 1)) :
    ∀ x ∈ box g.L, glob g (gaussian_smearing_poly g ji jq jv origi conf k nterm coeff exponent) x =
      ∑ i ∈ Finset.range nterm, (∏ j ∈ Finset.range (i + 1), coeff j) • (avg g (fun _ => k) (glob g conf))^[(exponent i).toNat] (glob g origi) x := by
  have hpos : ∀ i < nterm, 0 ≤ exponent i := by
    intro i
    induction i with
    | zero => exact fun _ => h0
    | succ i ih => exact fun h => (ih (by omega)).trans (hmono i h)
  have key : ∀ n ≤ nterm, ∀ x ∈ box g.L,
      glob g ((List.range n).foldl (polyTurn g ji jq jv conf k coeff exponent) (origi, fun _ _ => 0)).1 x =
        (∏ j ∈ Finset.range n, coeff j) • (avg g (fun _ => k) (glob g conf))^[if n = 0 then 0 else (exponent (n - 1)).toNat] (glob g origi) x ∧
      glob g ((List.range n).foldl (polyTurn g ji jq jv conf k coeff exponent) (origi, fun _ _ => 0)).2 x =
        ∑ i ∈ Finset.range n, (∏ j ∈ Finset.range (i + 1), coeff j) • (avg g (fun _ => k) (glob g conf))^[(exponent i).toNat] (glob g origi) x := by
    intro n
    induction n with
    | zero => intro _ x _; exact ⟨by simp, rfl⟩
    | succ n ih =>
      intro hle x hx
      have ih' := ih (by omega)
      rw [List.range_succ, List.foldl_append, List.foldl_cons, List.foldl_nil]
      set s := (List.range n).foldl (polyTurn g ji jq jv conf k coeff exponent) (origi, fun _ _ => 0) with hs
      have step : glob g (polyTurn g ji jq jv conf k coeff exponent s n).1 x =
          (∏ j ∈ Finset.range (n + 1), coeff j) • (avg g (fun _ => k) (glob g conf))^[(exponent n).toNat] (glob g origi) x := by
        have e : glob g (polyTurn g ji jq jv conf k coeff exponent s n).1 x =
            coeff n • glob g (gaussian_smearing_iso g ji jq jv s.1 conf k (if n > 0 then exponent n - exponent (n - 1) else exponent n)) x := rfl
        rw [e, C59_isotropic ok _ _ _ _ _ _ _ x hx, iter_congr ok _ _ _ _ _ (fun _ _ => rfl) (fun y hy => (ih' y hy).1) _ x hx, iter_smul]
        simp only
        rw [smul_smul, Finset.prod_range_succ, mul_comm (∏ j ∈ _, _), ← Function.iterate_add_apply]
        refine congrArg (fun m => (coeff n * ∏ j ∈ Finset.range n, coeff j) • (avg g (fun _ => k) (glob g conf))^[m] (glob g origi) x) ?_
        have p0 := hpos n (by omega)
        rcases Nat.eq_zero_or_pos n with rfl | hn0
        · simp
        · have p1 := hpos (n - 1) (by omega)
          have p2 := hmono (n - 1) (by omega)
          rw [show n - 1 + 1 = n by omega] at p2
          rw [if_pos hn0, if_neg (by omega)]
          omega
      refine ⟨by simpa using step, ?_⟩
      rw [Finset.sum_range_succ, ← (ih' x hx).2, ← step]
      rfl
  intro x hx
  unfold gaussian_smearing_poly
  split
  · rename_i h
    rcases h with h | ⟨rfl, h1, h2⟩
    · omega
    · simp [h1, h2]
  · exact (key nterm le_rfl x hx).2

omit ok in
/-- C59: so the polynomial asked for, `Σ coeff_i S^(exponent_i)`, is not what comes out: with the polynomial `0 + 1·S` the result is the null field. -/
theorem C59_violated_polynomial : ∃ (g : Geo) (conf : Nat → Nat → Quad) (origi : Nat → Nat → CV Unit) (coeff : Nat → ℝ) (exponent : Nat → Int) (x : Coords), g.Ok ∧ x ∈ box g.L ∧
    (∀ x ∈ box g.L, ∀ mu, glob g conf x mu = 1) ∧
    glob g (gaussian_smearing_poly g 0 (fun _ => 0) 0 origi conf 0 2 coeff exponent) x = 0 ∧
    ∑ i ∈ Finset.range 2, coeff i • (avg g (fun _ => 0) (glob g conf))^[(exponent i).toNat] (glob g origi) x ≠ 0 := by
  have gok : (⟨![8, 4, 4, 4], ![2, 2, 1, 1]⟩ : Geo).Ok := by decide
  have hx : (fun _ => 0 : Coords) ∈ box (⟨![8, 4, 4, 4], ![2, 2, 1, 1]⟩ : Geo).L := by decide +kernel
  refine ⟨⟨![8, 4, 4, 4], ![2, 2, 1, 1]⟩, fun _ _ _ => 1, fun _ _ => fun _ _ => 1, fun i => i, fun i => i, fun _ => 0, gok, hx, fun _ _ _ => rfl, ?_, ?_⟩
  · refine (C59_polynomial gok 0 _ 0 _ _ 0 2 (by norm_num) (fun i => (i : ℝ)) (fun i => (i : Int)) (by norm_num) (by intro i _; push_cast; omega) _ hx).trans ?_
    simp [Finset.sum_range_succ, Finset.prod_range_succ]
  · have : ∀ v : Coords → CV Unit, avg (⟨![8, 4, 4, 4], ![2, 2, 1, 1]⟩ : Geo) (fun _ => 0) (glob ⟨![8, 4, 4, 4], ![2, 2, 1, 1]⟩ fun _ _ _ => 1) v = v := by
      intro v; funext x; simp [avg]
    intro h
    have h2 := congrFun (congrFun h 0) ()
    simp [Finset.sum_range_succ, this] at h2
    simp [glob] at h2

omit ok in
/-- the hypotheses are met: two directions split among ranks, non trivial order of the lines -/
example : (⟨![8, 4, 4, 4], ![2, 2, 1, 1]⟩ : Geo).Ok ∧
    ∃ sched : Nat → List Nat, ∀ rk, (sched rk).Perm (List.range ((⟨![8, 4, 4, 4], ![2, 2, 1, 1]⟩ : Geo).locVol / (⟨![8, 4, 4, 4], ![2, 2, 1, 1]⟩ : Geo).loc 1)) :=
  ⟨by decide, fun _ => (List.range _).reverse, fun _ => List.reverse_perm _⟩

end Nissa.Gsm
