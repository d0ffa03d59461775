/- C28: the conjugate gradient in exact arithmetic. -/
import Verif.Inverters.Cg
import Mathlib.Analysis.InnerProductSpace.Orthonormal
import Mathlib.LinearAlgebra.Dimension.Finite
import Mathlib.LinearAlgebra.FiniteDimensional.Basic
import Mathlib.Analysis.InnerProductSpace.PiL2
import Mathlib.Tactic.FieldSimp
import Mathlib.Tactic.Linarith
set_option linter.all false

namespace Nissa.Cg
open scoped RealInnerProductSpace

variable {E : Type*} [NormedAddCommGroup E] [InnerProductSpace ℝ E]

/-! ### Specification -/

/-- symmetric positive definite operator -/
structure SPD (f : E →ₗ[ℝ] E) : Prop where
  symm : ∀ x y, ⟪f x, y⟫ = ⟪x, f y⟫
  pos : ∀ x, x ≠ 0 → 0 < ⟪f x, x⟫

/-- the states reached by the loop, one after the other, as long as the body does not abort -/
inductive Iterates (f : E → E) (st0 : State E) : Nat → State E → Prop
  | zero : Iterates f st0 0 st0
  | succ (k st st') : Iterates f st0 k st → iterate f st = some st' → Iterates f st0 (k + 1) st'

/-! ### The recursive residue is the true one -/

theorem iterate_some {f : E → E} {st st' : State E} (h : iterate f st = some st') :
    ⟪f st.p, st.p⟫ ≠ 0 ∧ st.delta ≠ 0 ∧ st'.sol = st.sol + (st.delta / ⟪f st.p, st.p⟫) • st.p ∧ st'.r = st.r - (st.delta / ⟪f st.p, st.p⟫) • f st.p ∧
    st'.delta = ⟪st'.r, st'.r⟫ ∧ st'.p = st'.r + (st'.delta / st.delta) • st.p := by
  unfold iterate at h
  simp only at h
  by_cases h1 : ⟪f st.p, st.p⟫ = 0
  · rw [if_pos h1] at h; cases h
  · rw [if_neg h1] at h
    by_cases h2 : st.delta = 0
    · rw [if_pos h2] at h; cases h
    · rw [if_neg h2] at h
      have := Option.some.inj h
      subst this
      exact ⟨h1, h2, rfl, rfl, rfl, rfl⟩

theorem true_residue (f : E →ₗ[ℝ] E) (guess : Option E) (source : E) (k : Nat) (st : State E) (h : Iterates f (init f guess source) k st) :
    st.r = source - f st.sol ∧ st.delta = ⟪st.r, st.r⟫ := by
  induction h with
  | zero => exact ⟨rfl, rfl⟩
  | succ k st st' hk hst ih =>
    obtain ⟨-, -, h1, h2, h3, -⟩ := iterate_some hst
    refine ⟨?_, h3⟩
    rw [h1, h2, ih.1, map_add, map_smul]
    abel

/-- the run of the loop stays on the iterates -/
theorem loop_iterates (f : E → E) (niter : Nat) (bound : ℝ) (st0 : State E) (iter : Nat) (st : State E) (h : Iterates f st0 iter st) (st' : State E) (n : Nat)
    (hl : loop f niter bound iter st = .ok (st', n)) : Iterates f st0 n st' ∧ iter < n ∧ (st'.delta < bound ∨ niter ≤ n) ∧ (n ≤ niter ∨ n = iter + 1) := by
  induction hm : niter - iter generalizing iter st with
  | zero =>
    rw [loop] at hl
    cases hi : iterate f st with
    | none => rw [hi] at hl; cases hl
    | some st1 =>
      rw [hi] at hl
      simp only at hl
      have hn : ¬(st1.delta ≥ bound ∧ iter + 1 < niter) := by rintro ⟨-, h⟩; omega
      rw [if_neg hn] at hl
      have := Except.ok.inj hl
      obtain ⟨rfl, rfl⟩ := Prod.mk.inj this
      exact ⟨.succ _ _ _ h hi, by omega, Or.inr (by omega), Or.inr rfl⟩
  | succ m ih =>
    rw [loop] at hl
    cases hi : iterate f st with
    | none => rw [hi] at hl; cases hl
    | some st1 =>
      rw [hi] at hl
      simp only at hl
      by_cases hn : st1.delta ≥ bound ∧ iter + 1 < niter
      · rw [if_pos hn] at hl
        obtain ⟨a, b, c, d⟩ := ih (iter + 1) st1 (.succ _ _ _ h hi) hl (by omega)
        exact ⟨a, by omega, c, Or.inl (by omega)⟩
      · rw [if_neg hn] at hl
        have := Except.ok.inj hl
        obtain ⟨rfl, rfl⟩ := Prod.mk.inj this
        refine ⟨.succ _ _ _ h hi, by omega, ?_, Or.inr rfl⟩
        by_contra hc
        rw [not_or, not_lt, not_le] at hc
        exact hn ⟨hc.1, hc.2⟩

/-- C28: at every iteration the residue updated recursively is the true residue of the current solution, and the number tested against
the target is its square norm. No property of the operator is needed but linearity. -/
theorem C28_true_residue (f : E →ₗ[ℝ] E) (guess : Option E) (source : E) (k : Nat) (st : State E) (h : Iterates f (init f guess source) k st) :
    st.r = source - f st.sol ∧ st.delta = ‖source - f st.sol‖ ^ 2 := by
  obtain ⟨h1, h2⟩ := true_residue f guess source k st h
  exact ⟨h1, by rw [h2, h1, real_inner_self_eq_norm_sq]⟩

/-- C28: if the solver returns, the true relative residue is smaller than required. It must be allowed at least one iteration. -/
theorem C28_returns_converged (f : E →ₗ[ℝ] E) (guess : Option E) (source : E) (niter : Nat) (hn : 0 < niter) (residue : ℝ) (sol : E) (n : Nat)
    (h : cgInvert guess f niter residue source = .ok (sol, n)) : ‖source - f sol‖ ^ 2 < residue * ‖source‖ ^ 2 ∧ 0 < n ∧ n < niter := by
  unfold cgInvert at h
  simp only at h
  by_cases hs : (⟪source, source⟫ : ℝ) = 0
  · rw [if_pos hs] at h; cases h
  · rw [if_neg hs] at h
    cases hl : loop f niter (residue * ⟪source, source⟫) 0 (init f guess source) with
    | error c => rw [hl] at h; cases h
    | ok v =>
      obtain ⟨st, m⟩ := v
      rw [hl] at h
      simp only at h
      by_cases hm : m = niter
      · rw [if_pos hm] at h; cases h
      · rw [if_neg hm] at h
        obtain ⟨h1, h2⟩ := Prod.mk.inj (Except.ok.inj h)
        subst h1; subst h2
        obtain ⟨a, b, c, d⟩ := loop_iterates f niter _ _ 0 _ .zero _ _ hl
        obtain ⟨-, t2⟩ := C28_true_residue f guess source m st a
        refine ⟨?_, b, by omega⟩
        rw [← t2, ← real_inner_self_eq_norm_sq]
        rcases c with c | c
        · exact c
        · omega

/-! ### Orthogonality -/

/-- everything which is true after `k` iterations: `S i` is the state after `i` iterations -/
theorem orthogonality (f : E →ₗ[ℝ] E) (hf : SPD f) (st0 : State E) (h0 : st0.p = st0.r) (hd0 : st0.delta = ⟪st0.r, st0.r⟫) (S : Nat → State E) (hS0 : S 0 = st0) :
    ∀ k, (∀ i < k, iterate f (S i) = some (S (i + 1))) →
      (∀ i j, i < j → j ≤ k → ⟪(S i).r, (S j).r⟫ = 0 ∧ ⟪f (S i).p, (S j).p⟫ = 0) ∧ (∀ j ≤ k, (S j).delta = ⟪(S j).r, (S j).r⟫) ∧
      (∀ j ≤ k, ∀ i ≤ k, j ≤ i → ⟪f (S i).p, (S j).r⟫ = if i = j then ⟪f (S i).p, (S i).p⟫ else 0) := by
  intro k
  induction k with
  | zero =>
    intro _
    refine ⟨fun i j hij hj => by omega, fun j hj => ?_, fun j hj i hi hji => ?_⟩
    · have : j = 0 := by omega
      subst this; rw [hS0, hd0]
    · have a : j = 0 := by omega
      have b : i = 0 := by omega
      subst a; subst b
      rw [if_pos rfl, hS0, h0]
  | succ k ih =>
    intro hit
    obtain ⟨ih1, ih2, ih3⟩ := ih (fun i hi => hit i (by omega))
    obtain ⟨al, dl, hsol, hr, hdel, hp⟩ := iterate_some (hit k (by omega))
    set w := (S k).delta / ⟪f (S k).p, (S k).p⟫ with hw
    have hw0 : w ≠ 0 := div_ne_zero dl al
    -- the new residue is orthogonal to the previous ones
    have hrr : ∀ i ≤ k, ⟪(S i).r, (S (k + 1)).r⟫ = 0 := by
      intro i hi
      rw [hr, inner_sub_right, inner_smul_right, real_inner_comm (f (S k).p) (S i).r, ih3 i hi k (le_refl _) hi]
      by_cases hik : k = i
      · subst hik
        rw [if_pos rfl, ← ih2 k (le_refl _), hw, div_mul_cancel₀ _ al, sub_self]
      · rw [if_neg hik, (ih1 i k (by omega) (le_refl _)).1, mul_zero, sub_zero]
    -- the new direction is conjugate to the previous ones
    have hfp : ∀ i ≤ k, ∃ v : ℝ, v ≠ 0 ∧ (S (i + 1)).r = (S i).r - v • f (S i).p := by
      intro i hi
      obtain ⟨a1, a2, -, a3, -, -⟩ := iterate_some (hit i (by omega))
      exact ⟨_, div_ne_zero a2 a1, a3⟩
    have hpp : ∀ i ≤ k, ⟪f (S i).p, (S (k + 1)).p⟫ = 0 := by
      intro i hi
      rw [hp, inner_add_right, inner_smul_right]
      by_cases hik : i = k
      · subst hik
        have e : ⟪f (S i).p, (S (i + 1)).r⟫ = - (S (i + 1)).delta / w := by
          have := hrr i (le_refl _)
          have h2 : ⟪(S (i + 1)).r, (S (i + 1)).r⟫ = ⟪(S i).r, (S (i + 1)).r⟫ - w * ⟪f (S i).p, (S (i + 1)).r⟫ := by
            conv_lhs => rw [hr]
            rw [inner_sub_left, inner_smul_left, ← hr]; rfl
          rw [← hdel, this, zero_sub] at h2
          field_simp
          linarith
        rw [e, hw]
        field_simp
        ring
      · obtain ⟨v, hv, hvr⟩ := hfp i hi
        have h2 : ⟪(S (i + 1)).r, (S (k + 1)).r⟫ = ⟪(S i).r, (S (k + 1)).r⟫ - v * ⟪f (S i).p, (S (k + 1)).r⟫ := by
          rw [hvr, inner_sub_left, inner_smul_left]; rfl
        rw [hrr (i + 1) (by omega), hrr i hi, zero_sub] at h2
        have h3 : ⟪f (S i).p, (S (k + 1)).r⟫ = 0 := by
          have := neg_eq_zero.1 h2.symm
          exact (mul_eq_zero.1 this).resolve_left hv
        rw [h3, (ih1 i k (by omega) (le_refl _)).2]; ring
    refine ⟨?_, ?_, ?_⟩
    · intro i j hij hj
      by_cases hjk : j = k + 1
      · subst hjk; exact ⟨hrr i (by omega), hpp i (by omega)⟩
      · exact ih1 i j hij (by omega)
    · intro j hj
      by_cases hjk : j = k + 1
      · subst hjk; exact hdel
      · exact ih2 j (by omega)
    · intro j hj i hi hji
      by_cases hik : i = k + 1
      · subst hik
        -- r_j in terms of the directions
        by_cases hjk : k + 1 = j
        · subst hjk
          rw [if_pos rfl]
          have e : (S (k + 1)).r = (S (k + 1)).p - ((S (k + 1)).delta / (S k).delta) • (S k).p := by rw [hp]; abel
          have h5 : ⟪f (S (k + 1)).p, (S k).p⟫ = 0 := by rw [hf.symm, real_inner_comm]; exact hpp k (le_refl _)
          conv_lhs => rw [e]
          rw [inner_sub_right, inner_smul_right, h5, mul_zero, sub_zero]
        · rw [if_neg hjk]
          have hk1 : ∀ i ≤ k, ⟪f (S (k + 1)).p, (S i).p⟫ = 0 := by
            intro i hi
            rw [hf.symm, real_inner_comm]; exact hpp i hi
          by_cases hj0 : j = 0
          · subst hj0
            have : (S 0).r = (S 0).p := by rw [hS0, h0]
            rw [this]; exact hk1 0 (by omega)
          · obtain ⟨j', rfl⟩ : ∃ j', j = j' + 1 := ⟨j - 1, by omega⟩
            obtain ⟨-, -, -, -, -, hpj⟩ := iterate_some (hit j' (by omega))
            have e : (S (j' + 1)).r = (S (j' + 1)).p - ((S (j' + 1)).delta / (S j').delta) • (S j').p := by rw [hpj]; abel
            rw [e, inner_sub_right, inner_smul_right, hk1 (j' + 1) (by omega), hk1 j' (by omega)]
            ring
      · exact ih3 j (by omega) i (by omega) hji

theorem Iterates.unique {f : E → E} {st0 : State E} {k : Nat} {a b : State E} (ha : Iterates f st0 k a) (hb : Iterates f st0 k b) : a = b := by
  induction k generalizing a b with
  | zero => cases ha; cases hb; rfl
  | succ k ih =>
    cases ha with
    | succ _ s1 _ h1 e1 =>
      cases hb with
      | succ _ s2 _ h2 e2 =>
        have := ih h1 h2
        subst this
        rw [e1] at e2
        exact Option.some.inj e2

theorem Iterates.seq {f : E → E} {st0 : State E} {k : Nat} {st : State E} (h : Iterates f st0 k st) :
    ∃ S : Nat → State E, S 0 = st0 ∧ S k = st ∧ (∀ i < k, iterate f (S i) = some (S (i + 1))) ∧ ∀ i ≤ k, Iterates f st0 i (S i) := by
  induction h with
  | zero =>
    refine ⟨fun _ => st0, rfl, rfl, fun i hi => by omega, fun i hi => ?_⟩
    have : i = 0 := by omega
    subst this
    exact .zero
  | succ k st st' hk hst ih =>
    obtain ⟨S, a, b, c, d⟩ := ih
    refine ⟨fun i => if i ≤ k then S i else st', by simp [a], by simp, ?_, ?_⟩
    · intro i hi
      by_cases hik : i = k
      · subst hik; simp [b, hst]
      · simp only [show i ≤ k by omega, show i + 1 ≤ k by omega, if_true]; exact c i (by omega)
    · intro i hi
      by_cases hik : i ≤ k
      · simp only [hik, if_true]; exact d i hik
      · have : i = k + 1 := by omega
        subst this
        simp only [show ¬(k + 1 ≤ k) by omega, if_false]; exact .succ _ _ _ hk hst

/-- C28: with a symmetric positive operator the residues are orthogonal and the search directions conjugate, from the first iteration to
any other -/
theorem C28_orthogonal (f : E →ₗ[ℝ] E) (hf : SPD f) (guess : Option E) (source : E) (i j : Nat) (hij : i < j) (a b : State E)
    (ha : Iterates f (init f guess source) i a) (hb : Iterates f (init f guess source) j b) : ⟪a.r, b.r⟫ = 0 ∧ ⟪f a.p, b.p⟫ = 0 := by
  obtain ⟨S, s0, sj, hS, hI⟩ := hb.seq
  have := (orthogonality f hf _ rfl rfl S s0 j hS).1 i j hij (le_refl _)
  have e : S i = a := (hI i (by omega)).unique ha
  rw [e, sj] at this
  exact this

/-! ### Termination -/

/-- the residue is orthogonal to the previous directions -/
theorem residue_directions (f : E →ₗ[ℝ] E) (hf : SPD f) (st0 : State E) (h0 : st0.p = st0.r) (hd0 : st0.delta = ⟪st0.r, st0.r⟫) (S : Nat → State E) (hS0 : S 0 = st0)
    (k : Nat) (hit : ∀ i < k, iterate f (S i) = some (S (i + 1))) : ∀ i < k, ⟪(S k).r, (S i).p⟫ = 0 := by
  obtain ⟨h1, h2, h3⟩ := orthogonality f hf st0 h0 hd0 S hS0 k hit
  intro i
  induction i with
  | zero =>
    intro hi
    have : (S 0).p = (S 0).r := by rw [hS0, h0]
    rw [this, real_inner_comm]
    exact (h1 0 k hi (le_refl _)).1
  | succ i ih =>
    intro hi
    obtain ⟨-, -, -, -, -, hp⟩ := iterate_some (hit i (by omega))
    rw [hp, inner_add_right, inner_smul_right, ih (by omega), mul_zero, add_zero, real_inner_comm]
    exact (h1 (i + 1) k hi (le_refl _)).1

/-- the body does not abort as long as the residue is not zero -/
theorem iterate_isSome (f : E →ₗ[ℝ] E) (hf : SPD f) (guess : Option E) (source : E) (k : Nat) (st : State E) (h : Iterates f (init f guess source) k st) (hd : st.delta ≠ 0) :
    ∃ st', iterate f st = some st' := by
  obtain ⟨S, s0, sk, hS, hI⟩ := h.seq
  have hdir := residue_directions f hf _ rfl rfl S s0 k hS
  obtain ⟨-, h2, -⟩ := orthogonality f hf _ rfl rfl S s0 k hS
  have hrp : ⟪(S k).r, (S k).p⟫ = (S k).delta := by
    cases k with
    | zero => rw [h2 0 (le_refl _), s0]; rfl
    | succ k =>
      obtain ⟨-, -, -, -, -, hp⟩ := iterate_some (hS k (by omega))
      conv_lhs => rw [hp]
      rw [inner_add_right, inner_smul_right, hdir k (by omega), mul_zero, add_zero, h2 (k + 1) (le_refl _)]
  rw [sk] at hrp
  have hp0 : st.p ≠ 0 := by
    intro hz
    rw [hz, inner_zero_right] at hrp
    exact hd hrp.symm
  have hal : ⟪f st.p, st.p⟫ ≠ 0 := ne_of_gt (hf.pos _ hp0)
  unfold iterate
  simp only
  rw [if_neg hal, if_neg hd]
  exact ⟨_, rfl⟩

/-- the number of iterations with a non vanishing residue is at most the dimension -/
theorem iterates_le_dim [FiniteDimensional ℝ E] (f : E →ₗ[ℝ] E) (hf : SPD f) (guess : Option E) (source : E) (k : Nat) (st : State E) (h : Iterates f (init f guess source) k st) (hd : st.delta ≠ 0) :
    k + 1 ≤ Module.finrank ℝ E := by
  obtain ⟨S, s0, sk, hS, hI⟩ := h.seq
  obtain ⟨h1, h2, -⟩ := orthogonality f hf _ rfl rfl S s0 k hS
  have hne : ∀ i ≤ k, (S i).r ≠ 0 := by
    intro i hi hz
    have hdi : (S i).delta ≠ 0 := by
      by_cases hik : i = k
      · subst hik; rw [sk]; exact hd
      · exact (iterate_some (hS i (by omega))).2.1
    rw [h2 i hi, hz, inner_zero_left] at hdi
    exact hdi rfl
  have hli : LinearIndependent ℝ (fun i : Fin (k + 1) => (S i).r) := by
    apply linearIndependent_of_ne_zero_of_inner_eq_zero (𝕜 := ℝ)
    · intro i; exact hne i (by omega)
    · intro i j hij
      rcases Nat.lt_or_gt_of_ne (fun hh => hij (Fin.ext hh) : i.val ≠ j.val) with hlt | hgt
      · exact (h1 i j hlt (by omega)).1
      · show ⟪(S i).r, (S j).r⟫ = 0
        rw [real_inner_comm]; exact (h1 j i hgt (by omega)).1
  have := hli.fintype_card_le_finrank
  simpa using this

theorem loop_terminates [FiniteDimensional ℝ E] (f : E →ₗ[ℝ] E) (hf : SPD f) (guess : Option E) (source : E) (niter : Nat) (hn : Module.finrank ℝ E < niter) (bound : ℝ) (hb : 0 < bound)
    (iter : Nat) (st : State E) (h : Iterates f (init f guess source) iter st) (hd : st.delta ≠ 0) :
    ∃ st' n, loop f niter bound iter st = .ok (st', n) ∧ n ≤ Module.finrank ℝ E := by
  induction hm : niter - iter generalizing iter st with
  | zero =>
    have := iterates_le_dim f hf guess source iter st h hd
    omega
  | succ m ih =>
    have hk := iterates_le_dim f hf guess source iter st h hd
    obtain ⟨st', hst⟩ := iterate_isSome f hf guess source iter st h hd
    rw [loop, hst]
    simp only
    by_cases hc : st'.delta ≥ bound ∧ iter + 1 < niter
    · rw [if_pos hc]
      exact ih (iter + 1) st' (.succ _ _ _ h hst) (by linarith [hc.1] : st'.delta > 0).ne' (by omega)
    · rw [if_neg hc]
      exact ⟨st', iter + 1, rfl, hk⟩

/-- C28: in exact arithmetic the solver returns within a number of iterations equal to the dimension of the space, if the operator is
symmetric and positive, the target is positive, the initial guess is not already the solution and more iterations than the dimension are
allowed; the true residue satisfies the target -/
theorem C28_terminates [FiniteDimensional ℝ E] (f : E →ₗ[ℝ] E) (hf : SPD f) (guess : Option E) (source : E) (hs : source ≠ 0) (hg : source - f (guess.getD 0) ≠ 0)
    (niter : Nat) (hn : Module.finrank ℝ E < niter) (residue : ℝ) (hr : 0 < residue) :
    ∃ sol n, cgInvert guess f niter residue source = .ok (sol, n) ∧ n ≤ Module.finrank ℝ E ∧ ‖source - f sol‖ ^ 2 < residue * ‖source‖ ^ 2 := by
  have hss : (⟪source, source⟫ : ℝ) ≠ 0 := fun h => hs (inner_self_eq_zero.1 h)
  have hpos : 0 < residue * (⟪source, source⟫ : ℝ) := mul_pos hr (lt_of_le_of_ne real_inner_self_nonneg (Ne.symm hss))
  have hd : (init f guess source).delta ≠ 0 := by
    unfold init
    simp only
    intro h
    refine hg ?_
    have := inner_self_eq_zero.1 h
    cases guess <;> simpa using this
  obtain ⟨st, n, h1, h2⟩ := loop_terminates f hf guess source niter hn _ hpos 0 _ .zero hd
  have h3 : cgInvert guess f niter residue source = .ok (st.sol, n) := by
    unfold cgInvert
    simp only
    rw [if_neg hss, h1]
    simp only
    rw [if_neg (by omega)]
  exact ⟨st.sol, n, h3, h2, (C28_returns_converged f guess source niter (by omega) residue _ _ h3).1⟩

/-! ### Where the code does not do what is expected -/

theorem loop_one (f : E → E) (niter : Nat) (hn : niter ≤ 1) (bound : ℝ) (st : State E) : loop f niter bound 0 st = match iterate f st with | none => .error .nanned | some st' => .ok (st', 1) := by
  rw [loop]
  cases iterate f st with
  | none => rfl
  | some st' => simp only; rw [if_neg (by rintro ⟨-, h⟩; omega)]

/-- the identity on the real line: solved exactly by one iteration -/
theorem one_iteration (b : ℝ) (hb : b ≠ 0) : iterate (fun x : ℝ => x) (init (fun x : ℝ => x) none b) = some ⟨b, 0, 0, 0⟩ := by
  have hbb : b * b ≠ 0 := mul_ne_zero hb hb
  unfold iterate init
  simp [hb, hbb]

/-- C28: asked to solve, from any source, with at most one iteration a system solved exactly by the first, the solver aborts saying that it
did not converge: reaching convergence at the last allowed iteration is taken as a failure -/
theorem C28_violated_last_iteration (b : ℝ) (hb : b ≠ 0) (residue : ℝ) :
    cgInvert none (fun x : ℝ => x) 1 residue b = .error .notConverging ∧ iterate (fun x : ℝ => x) (init (fun x : ℝ => x) none b) = some ⟨b, 0, 0, 0⟩ := by
  refine ⟨?_, one_iteration b hb⟩
  unfold cgInvert
  have hbb : b * b ≠ 0 := mul_ne_zero hb hb
  simp only
  rw [if_neg (by simpa using hb), loop_one _ _ (le_refl _), one_iteration b hb]
  rfl

/-- C28: given the solution as initial guess the solver aborts, with any linear operator -/
theorem C28_violated_exact_guess (f : E →ₗ[ℝ] E) (x : E) (hx : f x ≠ 0) (niter : Nat) (residue : ℝ) : cgInvert (some x) f niter residue (f x) = .error .nanned := by
  unfold cgInvert
  simp only
  rw [if_neg (fun h => hx (inner_self_eq_zero.1 h)), loop]
  have : iterate f (init f (some x) (f x)) = none := by
    unfold iterate init
    simp
  rw [this]

/-- the plane, with the operator of diagonal (1,2) -/
abbrev Plane := EuclideanSpace ℝ (Fin 2)

def diag12 (x : Plane) : Plane := !₂[x 0, 2 * x 1]

/-- instance of the hypotheses of C28: an operator for which more than one iteration is needed -/
def diag12Lin : Plane →ₗ[ℝ] Plane where
  toFun := diag12
  map_add' x y := by ext i; fin_cases i <;> simp [diag12]; ring
  map_smul' c x := by ext i; fin_cases i <;> simp [diag12]; ring

theorem diag12_spd : SPD diag12Lin where
  symm x y := by
    show ⟪diag12 x, y⟫ = ⟪x, diag12 y⟫
    simp [diag12, PiLp.inner_apply, Fin.sum_univ_two]; ring
  pos x hx := by
    show 0 < ⟪diag12 x, x⟫
    simp only [diag12, PiLp.inner_apply, Fin.sum_univ_two]
    simp
    have : x 0 ≠ 0 ∨ x 1 ≠ 0 := by
      by_contra h
      rw [not_or, not_not, not_not] at h
      exact hx (by ext i; fin_cases i; exact h.1; exact h.2)
    rcases this with h | h
    · have := mul_self_pos.2 h; nlinarith [mul_self_nonneg (x 1)]
    · have := mul_self_pos.2 h; nlinarith [mul_self_nonneg (x 0)]

example : ∃ sol n, cgInvert none diag12Lin 3 (1 / 1000) !₂[1, 1] = .ok (sol, n) ∧ n ≤ 2 ∧ ‖(!₂[1, 1] : Plane) - diag12Lin sol‖ ^ 2 < 1 / 1000 * ‖(!₂[1, 1] : Plane)‖ ^ 2 := by
  have h11 : (!₂[1, 1] : Plane) ≠ 0 := fun h => by have := congrArg (fun x : Plane => x 0) h; simp at this
  have hd : Module.finrank ℝ Plane = 2 := by simp
  have := C28_terminates diag12Lin diag12_spd none !₂[1, 1] h11 (by simpa using h11) 3 (by rw [hd]; omega) (1 / 1000) (by norm_num)
  rwa [hd] at this

/-- C28: with no iteration allowed (niter zero or negative) the solver makes one and returns whatever it has, far from the target: here the
operator has diagonal (1,2), the source is (1,1) and the relative residue is 1/9 -/
theorem C28_violated_no_iterations (residue : ℝ) (hr : residue ≤ 1 / 9) :
    ∃ sol, cgInvert none diag12Lin 0 residue !₂[1, 1] = .ok (sol, 1) ∧ ¬ ‖(!₂[1, 1] : Plane) - diag12Lin sol‖ ^ 2 < residue * ‖(!₂[1, 1] : Plane)‖ ^ 2 := by
  have h11 : (⟪(!₂[1, 1] : Plane), (!₂[1, 1] : Plane)⟫ : ℝ) ≠ 0 := by simp [PiLp.inner_apply, Fin.sum_univ_two]
  have hit : ∃ st', iterate diag12Lin (init diag12Lin none !₂[1, 1]) = some st' ∧ st'.sol = !₂[2 / 3, 2 / 3] := by
    have a : ⟪diag12Lin (!₂[1, 1] : Plane), (!₂[1, 1] : Plane)⟫ = (3 : ℝ) := by
      show ⟪diag12 _, _⟫ = _
      simp [diag12, PiLp.inner_apply, Fin.sum_univ_two]; norm_num
    have d : ⟪(!₂[1, 1] : Plane), (!₂[1, 1] : Plane)⟫ = (2 : ℝ) := by rw [PiLp.inner_apply, Fin.sum_univ_two]; simp; norm_num
    have e : init diag12Lin none !₂[1, 1] = ⟨0, !₂[1, 1], !₂[1, 1], 2⟩ := by unfold init; simp only [map_zero, sub_zero, d]
    rw [e]
    unfold iterate
    simp only
    rw [a, if_neg (by norm_num), if_neg (by norm_num)]
    refine ⟨_, rfl, ?_⟩
    ext i; fin_cases i <;> simp
  obtain ⟨st', h1, h2⟩ := hit
  refine ⟨st'.sol, ?_, ?_⟩
  · unfold cgInvert
    simp only
    rw [if_neg h11, loop_one _ _ (by omega), h1]
    rfl
  · rw [h2, ← real_inner_self_eq_norm_sq, ← real_inner_self_eq_norm_sq, not_lt]
    show _ ≤ ⟪_ - diag12 _, _ - diag12 _⟫
    rw [PiLp.inner_apply, PiLp.inner_apply, Fin.sum_univ_two, Fin.sum_univ_two]
    simp [diag12]
    norm_num
    linarith

end Nissa.Cg
