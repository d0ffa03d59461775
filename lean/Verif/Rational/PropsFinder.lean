import Verif.Rational.Finder
import Verif.Rational.PropsLu

/-!
# The rational-approximation finder: interpolation and error control (C56)
-/

set_option linter.all false

namespace Nissa.Remez

variable {K : Type} [Field K] [LinearOrder K] [IsStrictOrderedRing K]

/-! ### Specification -/

/-- Value at `x` of the polynomial with coefficients `c 0, …, c n`. -/
def polyAt (n : Nat) (c : Nat → K) (x : K) : K := ∑ i ∈ Finset.range (n + 1), c i * x ^ i

/-- Numerator of degree `d` and monic denominator of degree `d` coded by `2d+1` coefficients: first
the numerator from the constant up, then the denominator from the constant up. -/
def numAt (d : Nat) (c : Nat → K) (x : K) : K := polyAt d c x
def denAt (d : Nat) (c : Nat → K) (x : K) : K :=
  x ^ d + ∑ i ∈ Finset.range d, c (d + 1 + i) * x ^ i

/-- Relative error of an approximation `a` of `y` (absolute when `y` is null). -/
def relErr (y a : K) : K := if y ≠ 0 then |(y - a) / y| else |y - a|

/-- The extrema `xmax 0, …, xmax (N-1)` alternate with the zeros `zero 0, …, zero (N-2)` in
`[lo,hi]`. -/
def Interlaced (N : Nat) (lo hi : K) (zero xmax : Nat → K) : Prop :=
  ∀ i < N, (if i = 0 then lo else zero (i - 1)) ≤ xmax i ∧
    xmax i ≤ (if i = N - 1 then hi else zero i)

theorem Interlaced.mem {N : Nat} {lo hi : K} {zero xmax : Nat → K} (hN : 0 < N)
    (h : Interlaced N lo hi zero xmax) :
    (∀ i < N, lo ≤ xmax i ∧ xmax i ≤ hi) ∧ ∀ i < N - 1, lo ≤ zero i ∧ zero i ≤ hi := by
  have up' : ∀ i < N, lo ≤ xmax i := by
    intro i
    induction i with
    | zero => intro hi; have := (h 0 hi).1; simpa using this
    | succ i ih =>
      intro hi
      have h1 := (h (i + 1) hi).1
      have h2 := (h i (by omega)).2
      rw [if_neg (by omega), Nat.add_sub_cancel] at h1
      rw [if_neg (by omega)] at h2
      exact (ih (by omega)).trans (h2.trans h1)
  have dn' : ∀ t < N, xmax (N - 1 - t) ≤ hi := by
    intro t
    induction t with
    | zero => intro ht; have := (h (N - 1) (by omega)).2; simpa using this
    | succ t ih =>
      intro ht
      have h1 := (h (N - 1 - t) (by omega)).1
      have h2 := (h (N - 1 - (t + 1)) (by omega)).2
      rw [if_neg (by omega)] at h1 h2
      rw [show N - 1 - t - 1 = N - 1 - (t + 1) by omega] at h1
      exact h2.trans (h1.trans (ih (by omega)))
  have dn : ∀ i < N, xmax i ≤ hi := fun i hi' => by
    have := dn' (N - 1 - i) (by omega)
    rwa [show N - 1 - (N - 1 - i) = i by omega] at this
  refine ⟨fun i hi' => ⟨up' i hi', dn i hi'⟩, fun i hi' => ⟨?_, ?_⟩⟩
  · have := (h i (by omega)).2
    rw [if_neg (by omega)] at this
    exact (up' i (by omega)).trans this
  · have := (h (i + 1) (by omega)).1
    rw [if_neg (by omega), Nat.add_sub_cancel] at this
    exact this.trans (dn (i + 1) (by omega))

/-! ### Horner -/

theorem down_horner (n : Nat) (c : Nat → K) (x y : K) :
    down n (fun i y => x * y + c i) y = y * x ^ n + ∑ i ∈ Finset.range n, c i * x ^ i := by
  induction n generalizing y with
  | zero => simp [down]
  | succ n ih =>
    rw [down, ih, Finset.sum_range_succ]
    ring

theorem numApprox_eq (d : Nat) (c : Nat → K) (x : K) : numApprox d c x = numAt d c x := by
  unfold numApprox numAt polyAt
  rw [down_horner, Finset.sum_range_succ]
  ring

theorem denApprox_eq (d : Nat) (hd : 0 < d) (c : Nat → K) (x : K) :
    denApprox d c x = denAt d c x := by
  unfold denApprox denAt
  rw [down_horner (d - 1) (fun t => c (d + 1 + t))]
  obtain ⟨e, rfl⟩ : ∃ e, d = e + 1 := ⟨d - 1, by omega⟩
  rw [Nat.add_sub_cancel, Finset.sum_range_succ, show e + 1 + 1 + e = 2 * (e + 1) by omega]
  ring

/-! ### The system -/

theorem rowNum_spec (d : Nat) (z : K) (row : Nat → K) :
    (rowNum d z row).2 = z ^ (d + 1) ∧ ∀ j, (rowNum d z row).1 j = if j ≤ d then z ^ j else row j := by
  have main := up_inv (fun m (s : (Nat → K) × K) => s.2 = z ^ m ∧
      ∀ j, s.1 j = if j < m then z ^ j else row j)
    (fun j s => (put s.1 j s.2, s.2 * z)) (row, 1) (d + 1) ⟨by simp, by simp⟩ ?_
  · refine ⟨main.1, fun j => ?_⟩
    have := main.2 j
    unfold rowNum
    rw [this]
    simp only [Nat.lt_succ_iff]
  · rintro m hm s ⟨h1, h2⟩
    refine ⟨by simp only [h1, pow_succ], fun j => ?_⟩
    simp only [put]
    by_cases a : j = m
    · subst a; rw [if_pos rfl, if_pos (by omega), h1]
    · rw [if_neg a, h2 j]
      have : j < m ↔ j < m + 1 := by omega
      simp only [this]

theorem rowDen_spec (d : Nat) (z y : K) (row : Nat → K) :
    (rowDen d z y row).2 = z ^ d ∧ ∀ j, (rowDen d z y row).1 j =
      if d + 1 ≤ j ∧ j < 2 * d + 1 then -y * z ^ (j - (d + 1)) else row j := by
  have main := up_inv (fun m (s : (Nat → K) × K) => s.2 = z ^ m ∧
      ∀ j, s.1 j = if d + 1 ≤ j ∧ j < d + 1 + m then -y * z ^ (j - (d + 1)) else row j)
    (fun j s => (put s.1 (d + 1 + j) (-y * s.2), s.2 * z)) (row, 1) d
    ⟨by simp, fun j => by rw [if_neg (by omega)]⟩ ?_
  · refine ⟨main.1, fun j => ?_⟩
    have := main.2 j
    unfold rowDen
    rw [this]
    have e : (d + 1 ≤ j ∧ j < d + 1 + d) ↔ (d + 1 ≤ j ∧ j < 2 * d + 1) := by omega
    simp only [e]
  · rintro m hm s ⟨h1, h2⟩
    refine ⟨by simp only [h1, pow_succ], fun j => ?_⟩
    simp only [put]
    by_cases a : j = d + 1 + m
    · subst a
      rw [if_pos rfl, if_pos (by omega), h1, show d + 1 + m - (d + 1) = m by omega]
    · rw [if_neg a, h2 j]
      have : (d + 1 ≤ j ∧ j < d + 1 + m) ↔ (d + 1 ≤ j ∧ j < d + 1 + (m + 1)) := by omega
      simp only [this]

theorem sysMat_sum (d : Nat) (f : K → K) (zero c : Nat → K) (i : Nat) :
    ∑ j ∈ Finset.range (2 * d + 1), sysMat d f zero i j * c j - sysVec d f zero i =
      numAt d c (zero i) - f (zero i) * denAt d c (zero i) := by
  obtain ⟨n1, n2⟩ := rowNum_spec d (zero i) fun _ => 0
  obtain ⟨d1, d2⟩ := rowDen_spec d (zero i) (f (zero i)) (rowNum d (zero i) fun _ => 0).1
  have hv : sysVec d f zero i = zero i ^ d * f (zero i) := by
    unfold sysVec sysRow; rw [d1]
  have hm : ∀ j, sysMat d f zero i j = if d + 1 ≤ j ∧ j < 2 * d + 1 then
      -f (zero i) * zero i ^ (j - (d + 1)) else if j ≤ d then zero i ^ j else 0 := fun j => by
    unfold sysMat sysRow; rw [d2 j, n2 j]
  rw [hv, show 2 * d + 1 = (d + 1) + d by omega, Finset.sum_range_add]
  have e1 : ∑ j ∈ Finset.range (d + 1), sysMat d f zero i j * c j = numAt d c (zero i) := by
    refine Finset.sum_congr rfl fun j hj => ?_
    have := Finset.mem_range.1 hj
    rw [hm j, if_neg (by omega), if_pos (by omega), mul_comm]
  have e2 : ∑ j ∈ Finset.range d, sysMat d f zero i (d + 1 + j) * c (d + 1 + j) =
      -f (zero i) * ∑ j ∈ Finset.range d, c (d + 1 + j) * zero i ^ j := by
    rw [Finset.mul_sum]
    refine Finset.sum_congr rfl fun j hj => ?_
    have := Finset.mem_range.1 hj
    rw [hm, if_pos (by omega), show d + 1 + j - (d + 1) = j by omega]
    ring
  rw [e1, e2]
  unfold denAt
  ring

/-- **C56**: the coefficients the finder computes from a set of nodes are those of the rational
function, with numerator of degree `d` and monic denominator of degree `d`, that takes the values of
the function at the `2d+1` nodes; they are the only ones; and two equal nodes are always detected. -/
theorem C56_interpolates (d : Nat) (hd : 0 < d) (f : K → K) (zero c : Nat → K)
    (h : linear_system_solve (2 * d + 1) (sysMat d f zero) (sysVec d f zero) = some c) :
    (∀ i < 2 * d + 1, numAt d c (zero i) = f (zero i) * denAt d c (zero i)) ∧
      (∀ i < 2 * d + 1, denAt d c (zero i) ≠ 0 → compute_approx d c (zero i) = f (zero i) ∧
        get_abs_err d f c (zero i) = 0) ∧
      (∀ c' : Nat → K, (∀ i < 2 * d + 1, numAt d c' (zero i) = f (zero i) * denAt d c' (zero i)) →
        ∀ j < 2 * d + 1, c' j = c j) ∧
      ∀ i < 2 * d + 1, ∀ j < 2 * d + 1, zero i = zero j → i = j := by
  obtain ⟨hnone, hsome⟩ := C56_linear_system (2 * d + 1) (by omega) (sysMat d f zero)
    (sysVec d f zero)
  obtain ⟨hs, hu⟩ := hsome c h
  have key : ∀ i < 2 * d + 1, numAt d c (zero i) = f (zero i) * denAt d c (zero i) := fun i hi => by
    have := sysMat_sum d f zero c i
    rw [hs i hi, sub_self] at this
    exact (sub_eq_zero.1 this.symm)
  have app : ∀ i < 2 * d + 1, denAt d c (zero i) ≠ 0 → compute_approx d c (zero i) = f (zero i) := by
    intro i hi hne
    unfold compute_approx
    rw [numApprox_eq, denApprox_eq d hd, key i hi, mul_div_assoc, div_self hne, mul_one]
  refine ⟨key, fun i hi hne => ⟨app i hi hne, ?_⟩, fun c' hc' => hu c' fun i hi => ?_, ?_⟩
  · unfold get_abs_err get_err
    rw [app i hi hne]
    simp
  · have := sysMat_sum d f zero c' i
    rw [hc' i hi, sub_self] at this
    exact sub_eq_zero.1 this
  · intro i hi j hj hij
    by_contra hne
    have hdet : (sysMatrix (2 * d + 1) (sysMat d f zero)).det = 0 := by
      refine Matrix.det_zero_of_row_eq (i := ⟨i, hi⟩) (j := ⟨j, hj⟩)
        (fun h => hne (Fin.mk.inj_iff.1 h)) ?_
      funext l
      show sysMat d f zero i l = sysMat d f zero j l
      unfold sysMat sysRow
      rw [hij]
    rw [hnone.2 hdet] at h
    exact absurd h (by simp)

theorem get_abs_err_eq (d : Nat) (hd : 0 < d) (f : K → K) (c : Nat → K) (x : K) :
    get_abs_err d f c x = relErr (f x) (numAt d c x / denAt d c x) := by
  unfold get_abs_err get_err relErr compute_approx
  rw [numApprox_eq, denApprox_eq d hd]
  split_ifs <;> rfl

/-! ### Moving the extrema -/

theorem walk_spec (err : K → K) (lo hi q : K) (left : Nat) (xm xn : K)
    (hm : lo ≤ xm ∧ xm ≤ hi) (hn : lo ≤ xn ∧ xn ≤ hi) :
    (lo ≤ (walk err lo hi q left xm (err xm) xn (err xn)).1 ∧
      (walk err lo hi q left xm (err xm) xn (err xn)).1 ≤ hi) ∧
      (walk err lo hi q left xm (err xm) xn (err xn)).2 =
        err (walk err lo hi q left xm (err xm) xn (err xn)).1 ∧
      err xm ≤ (walk err lo hi q left xm (err xm) xn (err xn)).2 := by
  induction left generalizing xm xn with
  | zero => exact ⟨hm, rfl, le_rfl⟩
  | succ left ih =>
    rw [walk]
    by_cases a : err xn < err xm
    · rw [if_pos a]; exact ⟨hm, rfl, le_rfl⟩
    · rw [if_neg a]
      by_cases b : xn + q = xn ∨ ¬ lo < xn + q ∨ ¬ xn + q < hi
      · rw [if_pos b]; exact ⟨hn, rfl, not_lt.1 a⟩
      · rw [if_neg b]
        push Not at b
        obtain ⟨i1, i2, i3⟩ := ih xn (xn + q) hn ⟨b.2.1.le, b.2.2.le⟩
        exact ⟨i1, i2, (not_lt.1 a).trans i3⟩

theorem moveMax_spec (err : K → K) (lo hi xm q : K) (hm : lo ≤ xm ∧ xm ≤ hi) :
    (lo ≤ (moveMax err lo hi xm q).1 ∧ (moveMax err lo hi xm q).1 ≤ hi) ∧
      (moveMax err lo hi xm q).2 = err (moveMax err lo hi xm q).1 ∧
      err xm ≤ (moveMax err lo hi xm q).2 := by
  unfold moveMax
  by_cases a : xm + q < lo ∨ ¬ xm + q < hi
  · rw [if_pos a]; exact walk_spec err lo hi (-q) 9 xm xm hm hm
  · rw [if_neg a]
    push Not at a
    by_cases b : err (xm + q) < err xm
    · rw [if_pos b]; exact walk_spec err lo hi (-q) 9 xm xm hm hm
    · rw [if_neg b]; exact walk_spec err lo hi q 9 xm (xm + q) hm ⟨a.1, a.2.le⟩

/-- After the loop over the extrema. -/
structure Moved (err : K → K) (N m : Nat) (lo hi : K) (zero xmax0 : Nat → K) (s : MoveState K) :
    Prop where
  left : ∀ i, m ≤ i → s.xmax i = xmax0 i
  z0 : s.zero0 = if m = 0 then lo else if m = N then hi else zero (m - 1)
  between : ∀ i < m, (if i = 0 then lo else zero (i - 1)) ≤ s.xmax i ∧
    s.xmax i ≤ (if i = N - 1 then hi else zero i)
  yy : ∀ i < m, s.yy i = err (s.xmax i)
  better : ∀ i < m, err (xmax0 i) ≤ err (s.xmax i)
  far_nonneg : 0 ≤ s.farther
  far_ge : ∀ i < m, err (s.xmax i) ≤ s.farther
  far_at : s.farther = 0 ∨ ∃ i < m, s.farther = err (s.xmax i)
  close_le : ∀ i < m, s.eclose ≤ err (s.xmax i)
  close_at : s.eclose = 10 ^ 30 ∨ ∃ i < m, s.eclose = err (s.xmax i)

theorem moveAll_spec (err : K → K) (N : Nat) (lo hi : K) (zero xmax step : Nat → K)
    (h : Interlaced N lo hi zero xmax) :
    Moved err N N lo hi zero xmax (moveAll err N lo hi zero xmax step) := by
  unfold moveAll
  refine up_inv (fun m s => Moved err N m lo hi zero xmax s) _ _ N ?_ ?_
  · exact ⟨fun _ _ => rfl, by simp, by simp, by simp, by simp, le_rfl, by simp, Or.inl rfl, by simp,
      Or.inl rfl⟩
  · intro m hm s H
    have hz0 : s.zero0 = if m = 0 then lo else zero (m - 1) := by
      rw [H.z0]
      by_cases a : m = 0
      · rw [if_pos a, if_pos a]
      · rw [if_neg a, if_neg a, if_neg (by omega)]
    have hx : s.xmax m = xmax m := H.left m le_rfl
    set z1 := (if m = N - 1 then hi else zero m) with hz1
    have hb := h m hm
    rw [← hz0, ← hx, ← hz1] at hb
    obtain ⟨q1, q2, q3⟩ := moveMax_spec err s.zero0 z1 (s.xmax m) (step m) hb
    set mm := moveMax err s.zero0 z1 (s.xmax m) (step m) with hmm
    have hnew : moveOne err N hi zero step m s =
      { xmax := put s.xmax m mm.1, yy := put s.yy m mm.2,
        eclose := if mm.2 < s.eclose then mm.2 else s.eclose,
        farther := if s.farther < mm.2 then mm.2 else s.farther, zero0 := z1 } := rfl
    rw [hnew]
    have pm : ∀ v a, put v m a m = (a : K) := fun v a => by unfold put; rw [if_pos rfl]
    have po : ∀ (v : Nat → K) a i, i ≠ m → put v m a i = v i := fun v a i hi => by
      unfold put; rw [if_neg hi]
    have lt' : ∀ i, i < m + 1 → i ≠ m → i < m := fun i a b => by omega
    refine ⟨?_, ?_, ?_, ?_, ?_, ?_, ?_, ?_, ?_, ?_⟩
    · intro i hi'; simp only; rw [po _ _ _ (by omega)]; exact H.left i (by omega)
    · simp only
      rw [if_neg (by omega), hz1, Nat.add_sub_cancel]
      by_cases a : m = N - 1
      · rw [if_pos a, if_pos (by omega)]
      · rw [if_neg a, if_neg (by omega)]
    · intro i hi'
      by_cases a : i = m
      · subst a; simp only; rw [pm, ← hz0, ← hz1]; exact q1
      · simp only; rw [po _ _ _ a]; exact H.between i (lt' i hi' a)
    · intro i hi'
      by_cases a : i = m
      · subst a; simp only; rw [pm, pm]; exact q2
      · simp only; rw [po _ _ _ a, po _ _ _ a]; exact H.yy i (lt' i hi' a)
    · intro i hi'
      by_cases a : i = m
      · subst a; simp only; rw [pm, ← q2, ← hx]; exact q3
      · simp only; rw [po _ _ _ a]; exact H.better i (lt' i hi' a)
    · simp only
      split_ifs with a
      · exact H.far_nonneg.trans a.le
      · exact H.far_nonneg
    · intro i hi'
      by_cases a : i = m
      · subst a; simp only; rw [pm, ← q2]
        split_ifs with b
        · exact le_rfl
        · exact not_lt.1 b
      · simp only; rw [po _ _ _ a]
        have := H.far_ge i (lt' i hi' a)
        split_ifs with b
        · exact this.trans b.le
        · exact this
    · simp only
      by_cases b : s.farther < mm.2
      · rw [if_pos b]
        exact Or.inr ⟨m, by omega, by rw [pm, q2]⟩
      · rw [if_neg b]
        rcases H.far_at with h' | ⟨i, hi', h'⟩
        · exact Or.inl h'
        · exact Or.inr ⟨i, by omega, by rw [po _ _ _ (by omega), h']⟩
    · intro i hi'
      by_cases a : i = m
      · subst a; simp only; rw [pm, ← q2]
        split_ifs with b
        · exact le_rfl
        · exact not_lt.1 b
      · simp only; rw [po _ _ _ a]
        have := H.close_le i (lt' i hi' a)
        split_ifs with b
        · exact b.le.trans this
        · exact this
    · simp only
      by_cases b : mm.2 < s.eclose
      · rw [if_pos b]
        exact Or.inr ⟨m, by omega, by rw [pm, q2]⟩
      · rw [if_neg b]
        rcases H.close_at with h' | ⟨i, hi', h'⟩
        · exact Or.inl h'
        · exact Or.inr ⟨i, by omega, by rw [po _ _ _ (by omega), h']⟩

theorem newZero_between (lo hi xl xr z st : K) (h1 : xl ≤ z) (h2 : z ≤ xr) :
    xl ≤ newZero lo hi xl xr z st ∧ newZero lo hi xl xr z st ≤ xr := by
  unfold newZero
  by_cases a : lo < z - st
  · rw [if_pos a]
    by_cases b : z - st < hi
    · rw [if_pos b]
      show xl ≤ (if ¬ (if ¬ xl < z - st then 1 / 2 * (xl + z) else z - st) < xr then
          1 / 2 * (xr + z) else (if ¬ xl < z - st then 1 / 2 * (xl + z) else z - st)) ∧
        (if ¬ (if ¬ xl < z - st then 1 / 2 * (xl + z) else z - st) < xr then
          1 / 2 * (xr + z) else (if ¬ xl < z - st then 1 / 2 * (xl + z) else z - st)) ≤ xr
      have hx : xl ≤ (if ¬ xl < z - st then 1 / 2 * (xl + z) else z - st) := by
        split_ifs with c
        · exact c.le
        · linarith
      set xm := (if ¬ xl < z - st then 1 / 2 * (xl + z) else z - st) with hxm
      by_cases c : xm < xr
      · rw [if_neg (not_not.2 c)]; exact ⟨hx, c.le⟩
      · rw [if_pos c]; constructor <;> linarith
    · rw [if_neg b]; exact ⟨h1, h2⟩
  · rw [if_neg a]; exact ⟨h1, h2⟩

theorem newZeros_spec (N : Nat) (lo hi : K) (xmax step zero : Nat → K) (i : Nat) :
    up N (fun i z => put z i (newZero lo hi (xmax i) (xmax (i + 1)) (z i) (step i))) zero i =
      if i < N then newZero lo hi (xmax i) (xmax (i + 1)) (zero i) (step i) else zero i := by
  have main := up_inv (fun m (z : Nat → K) => ∀ i, z i =
      if i < m then newZero lo hi (xmax i) (xmax (i + 1)) (zero i) (step i) else zero i)
    (fun i z => put z i (newZero lo hi (xmax i) (xmax (i + 1)) (z i) (step i))) zero N (by simp) ?_
  · exact main i
  · intro m hm z hz i
    simp only [put]
    by_cases a : i = m
    · subst a; rw [if_pos rfl, if_pos (by omega), hz i, if_neg (by omega)]
    · rw [if_neg a, hz i]
      have : i < m ↔ i < m + 1 := by omega
      simp only [this]

/-- One step keeps extrema and zeros alternated, and never lowers the error at an extremum. -/
theorem new_step_spec (err : K → K) (N : Nat) (hN : 1 < N) (lo hi : K) (s : Finder K)
    (h : Interlaced N lo hi s.zero s.xmax) :
    (new_step err N lo hi s).coeff = s.coeff ∧
    Interlaced N lo hi (new_step err N lo hi s).zero (new_step err N lo hi s).xmax ∧
      Interlaced N lo hi s.zero (new_step err N lo hi s).xmax ∧
      (∀ i < N, err (s.xmax i) ≤ err ((new_step err N lo hi s).xmax i)) ∧
      (∀ i < N, err ((new_step err N lo hi s).xmax i) ≤ (new_step err N lo hi s).farther) ∧
      (∀ i < N, (new_step err N lo hi s).eclose ≤ err ((new_step err N lo hi s).xmax i)) ∧
      ((new_step err N lo hi s).farther = 0 ∨ ∃ i < N,
        (new_step err N lo hi s).farther = err ((new_step err N lo hi s).xmax i)) ∧
      ((new_step err N lo hi s).eclose = 10 ^ 30 ∨ ∃ i < N,
        (new_step err N lo hi s).eclose = err ((new_step err N lo hi s).xmax i)) := by
  have M := moveAll_spec err N lo hi s.zero s.xmax s.step h
  have hI : Interlaced N lo hi s.zero (new_step err N lo hi s).xmax := M.between
  refine ⟨rfl, ?_, hI, M.better, M.far_ge, M.close_le, M.far_at, M.close_at⟩
  -- the new zeros lie between the new extrema
  obtain ⟨st, hz⟩ : ∃ st : Nat → K, ∀ i, (new_step err N lo hi s).zero i =
      if i < N - 1 then newZero lo hi ((new_step err N lo hi s).xmax i)
        ((new_step err N lo hi s).xmax (i + 1)) (s.zero i) (st i) else s.zero i :=
    ⟨_, fun i => newZeros_spec (N - 1) lo hi _ _ s.zero i⟩
  have hb : ∀ i < N - 1, (new_step err N lo hi s).xmax i ≤ (new_step err N lo hi s).zero i ∧
      (new_step err N lo hi s).zero i ≤ (new_step err N lo hi s).xmax (i + 1) := by
    intro i hi'
    rw [hz i, if_pos hi']
    refine newZero_between lo hi _ _ _ _ ?_ ?_
    · have := (hI i (by omega)).2
      rwa [if_neg (by omega)] at this
    · have := (hI (i + 1) (by omega)).1
      rwa [if_neg (by omega), Nat.add_sub_cancel] at this
  intro i hi'
  refine ⟨?_, ?_⟩
  · by_cases a : i = 0
    · have := (hI i hi').1
      rw [if_pos a] at this ⊢
      exact this
    · rw [if_neg a]
      have := (hb (i - 1) (by omega)).2
      rwa [show i - 1 + 1 = i by omega] at this
  · by_cases a : i = N - 1
    · have := (hI i hi').2
      rw [if_pos a] at this ⊢
      exact this
    · rw [if_neg a]
      exact (hb i (by omega)).1

/-! ### The loop -/

/-- What the finder leaves behind: nodes and extrema alternated in the interval, coefficients
interpolating the function at the nodes, and the two errors reported being the largest and smallest
relative error over the extrema. -/
structure Certificate (d : Nat) (f : K → K) (lo hi : K) (s : Finder K) (node : Nat → K) : Prop where
  inter : Interlaced (2 * d + 2) lo hi node s.xmax
  interp : ∀ i < 2 * d + 1, numAt d s.coeff (node i) = f (node i) * denAt d s.coeff (node i)
  distinct : ∀ i < 2 * d + 1, ∀ j < 2 * d + 1, node i = node j → i = j
  far : ∀ i < 2 * d + 2, relErr (f (s.xmax i))
    (numAt d s.coeff (s.xmax i) / denAt d s.coeff (s.xmax i)) ≤ s.farther
  far_at : ∃ i < 2 * d + 2, s.farther = relErr (f (s.xmax i))
    (numAt d s.coeff (s.xmax i) / denAt d s.coeff (s.xmax i))
  close : ∀ i < 2 * d + 2, s.eclose ≤ relErr (f (s.xmax i))
    (numAt d s.coeff (s.xmax i) / denAt d s.coeff (s.xmax i))

theorem relErr_nonneg (y a : K) : 0 ≤ relErr y a := by
  unfold relErr
  split_ifs <;> exact abs_nonneg _

theorem remezPass_spec (d : Nat) (hd : 0 < d) (f : K → K) (lo hi target toll : K) (iter : Nat)
    (s s' : Finder K) (h : Interlaced (2 * d + 2) lo hi s.zero s.xmax)
    (hg : iter = 0 ∨ remezAgain target toll s)
    (hp : remezPass d f lo hi target toll iter s = some s') :
    Interlaced (2 * d + 2) lo hi s'.zero s'.xmax ∧ Certificate d f lo hi s' s.zero := by
  unfold remezPass at hp
  cases hl : linear_system_solve (2 * d + 1) (sysMat d f s.zero) (sysVec d f s.zero) with
  | none => rw [hl] at hp; exact absurd hp (by simp)
  | some c =>
    rw [hl] at hp
    simp only at hp
    have hc : iter = 0 ∨ (toll < s.spread ∧ (target < s.farther ∨ ¬ 0 < target)) := by
      rcases hg with h0 | ⟨h1, _, h3⟩
      · exact Or.inl h0
      · refine Or.inr ⟨h1, ?_⟩
        rcases h3 with h' | h'
        · exact Or.inr h'
        · exact Or.inl h'.2
    rw [if_pos hc] at hp
    obtain rfl := Option.some.inj hp
    obtain ⟨n0, n1, n2, n3, n4, n5, n6, n7⟩ := new_step_spec (get_abs_err d f c) (2 * d + 2)
      (by omega) lo hi { s with coeff := c } h
    obtain ⟨i1, _, _, i4⟩ := C56_interpolates d hd f s.zero c hl
    refine ⟨n1, ⟨n2, ?_, i4, ?_, ?_, ?_⟩⟩
    · rw [n0]; exact i1
    · intro i hi'
      rw [n0]
      simp only
      rw [← get_abs_err_eq d hd]
      exact n4 i hi'
    · rw [n0]
      simp only
      rcases n6 with h' | ⟨i, hi', h'⟩
      · refine ⟨0, by omega, ?_⟩
        refine le_antisymm ?_ ?_
        · rw [h']; exact relErr_nonneg _ _
        · rw [← get_abs_err_eq d hd]
          exact n4 0 (by omega)
      · exact ⟨i, hi', by rw [← get_abs_err_eq d hd]; exact h'⟩
    · intro i hi'
      rw [n0]
      simp only
      rw [← get_abs_err_eq d hd]
      exact n5 i hi'

theorem remezLoop_spec (d : Nat) (hd : 0 < d) (f : K → K) (lo hi target toll : K) (fuel iter : Nat)
    (s s' : Finder K) (h : Interlaced (2 * d + 2) lo hi s.zero s.xmax)
    (hg : iter = 0 ∨ remezAgain target toll s)
    (hp : remezLoop d f lo hi target toll fuel iter s = .done s') :
    ¬ remezAgain target toll s' ∧ ∃ node, Certificate d f lo hi s' node := by
  induction fuel generalizing iter s with
  | zero => exact absurd hp (by simp [remezLoop])
  | succ fuel ih =>
    rw [remezLoop] at hp
    cases hr : remezPass d f lo hi target toll iter s with
    | none => rw [hr] at hp; exact absurd hp (by simp)
    | some t =>
      rw [hr] at hp
      simp only at hp
      obtain ⟨p1, p2⟩ := remezPass_spec d hd f lo hi target toll iter s t h hg hr
      by_cases a : remezAgain target toll t
      · rw [if_pos a] at hp
        exact ih (iter + 1) t p1 (Or.inr a) hp
      · rw [if_neg a] at hp
        injection hp with hp
        subst hp
        exact ⟨a, s.zero, p2⟩

end Nissa.Remez
