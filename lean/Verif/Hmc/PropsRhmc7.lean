import Verif.Hmc.PropsRhmc6
import Mathlib.MeasureTheory.Measure.Lebesgue.Basic

/-! # C57: the acceptance test -/

set_option linter.all false

namespace Nissa.Rhmc
open Nissa.Lx Nissa.Sten Nissa.Su3f Nissa.Gauge Nissa.GForce Nissa.LSm Nissa.StD Nissa.Back Nissa.CgF Nissa.Inv Nissa.QForce Nissa.Omel Matrix Complex MeasureTheory

/-- probability that the test is passed, when the number drawn is uniform in `[0,1)` -/
noncomputable def accProb (delta : ℝ) : ℝ := (volume {t : ℝ | 0 ≤ t ∧ t < 1 ∧ metro_test t delta}).toReal

theorem tresh_eq (delta : ℝ) : metro_tresh delta = min 1 (Real.exp (-delta)) := by
  unfold metro_tresh
  split
  · rw [min_eq_left]; rw [Real.one_le_exp_iff]; linarith
  · rw [min_eq_right]; rw [Real.exp_le_one_iff]; linarith

/-- C57: the test accepts with probability `min(1,exp(-delta))`, always if the action does not increase, and the probabilities of a change and
of the opposite one are in the ratio of the Boltzmann weights. -/
theorem C57_metropolis (e e' : ℝ) :
    accProb (e' - e) = min 1 (Real.exp (e - e')) ∧
    (e' ≤ e → ∀ toss < 1, metro_test toss (e' - e)) ∧
    Real.exp (-e) * accProb (e' - e) = Real.exp (-e') * accProb (e - e') := by
  have key : ∀ d, accProb d = min 1 (Real.exp (-d)) := by
    intro d
    unfold accProb
    have h : {t : ℝ | 0 ≤ t ∧ t < 1 ∧ metro_test t d} = Set.Ico 0 (min 1 (Real.exp (-d))) := by
      ext t
      simp only [Set.mem_setOf_eq, Set.mem_Ico, metro_test, tresh_eq]
      constructor
      · rintro ⟨a, _, b⟩; exact ⟨a, b⟩
      · rintro ⟨a, b⟩; exact ⟨a, lt_of_lt_of_le b (min_le_left _ _), b⟩
    rw [h, Real.volume_Ico, ENNReal.toReal_ofReal]
    · simp
    · have : 0 < min 1 (Real.exp (-d)) := lt_min one_pos (Real.exp_pos _)
      linarith
  refine ⟨by rw [key, neg_sub], fun h toss ht => ?_, ?_⟩
  · unfold metro_test metro_tresh
    rw [if_pos (by linarith)]
    exact ht
  · rw [key, key, neg_sub, neg_sub]
    rw [mul_min_of_nonneg _ _ (Real.exp_pos _).le, mul_min_of_nonneg _ _ (Real.exp_pos _).le, ← Real.exp_add, ← Real.exp_add, mul_one, mul_one, min_comm]
    congr 1
    · congr 1; ring
    · congr 1; ring

/-- C57: the configuration kept is the new one if the test is passed, or if the test is skipped in the first trajectories; the old one otherwise. -/
theorem C57_new_conf (skip itraj : Int) (toss diff : ℝ) (conf new_conf : EoConf) :
    (itraj < skip → newConf skip itraj toss diff conf new_conf = new_conf) ∧
    (skip ≤ itraj → (toss < min 1 (Real.exp (-diff)) → newConf skip itraj toss diff conf new_conf = new_conf) ∧
      (min 1 (Real.exp (-diff)) ≤ toss → newConf skip itraj toss diff conf new_conf = conf)) := by
  unfold newConf
  simp only [metro_test, tresh_eq]
  refine ⟨fun h => ?_, fun h => ⟨fun ht => ?_, fun ht => ?_⟩⟩
  · rw [if_pos]; rw [if_pos (by omega)]; trivial
  · rw [if_pos]; rw [if_neg (by omega)]; exact ht
  · rw [if_neg]; rw [if_neg (by omega)]; exact not_lt.2 ht

section
variable {g : Geo} (ok : g.Ok) (eo : EoOk g)
include ok eo

/-- action of momenta, gauge field and pseudofermions -/
noncomputable def energy (g : Geo) (beta C1 : ℝ) (S1 : List QForce.Quark) (s : State) : ℝ := quarkAction g S1 s.2 + actionSpec beta C1 g s.2 + kinSpec g s.1

/-- the move of the molecular dynamics: trajectory, then the sign of the momenta is changed -/
noncomputable def move (g : Geo) (T : Theory) (tau : ℝ) (n m : Nat) (s : State) : State := flip (runs g T (fullTraj tau n m) s)

omit eo in
theorem kin_flip (H : Coords → Quad) : kinSpec g (fun x mu => -H x mu) = kinSpec g H := by
  unfold kinSpec
  simp

/-- C57: detailed balance.  For given pseudofermions and approximations, the move by a trajectory is undone by the same move, and accepting it
with the probability of the test for the difference of action balances the Boltzmann weights of momenta, links and pseudofermions. -/
theorem C57_detailed_balance (beta C1 : ℝ) (S1 S2 : List QForce.Quark) (h1 : QOk S1) (h2 : QOk S2) (tau : ℝ) (n m : Nat) (s s' s'' : State)
    (hs : ∀ x ∈ box g.L, ∀ mu, (s.1 x mu)ᴴ = s.1 x mu ∧ (s.1 x mu).trace = 0) (hr : Fair g (theoryOf g beta C1 S2) (fullTraj tau n m) s)
    (e' : s' = move g (theoryOf g beta C1 S2) tau n m s) (e'' : s'' = move g (theoryOf g beta C1 S2) tau n m s') :
    (∀ x ∈ box g.L, s''.1 x = s.1 x ∧ s''.2 x = s.2 x) ∧
    Real.exp (-energy g beta C1 S1 s) * accProb (energy g beta C1 S1 s' - energy g beta C1 S1 s) =
      Real.exp (-energy g beta C1 S1 s') * accProb (energy g beta C1 S1 s'' - energy g beta C1 S1 s') := by
  have hT := theory_local ok eo beta C1 h2
  have hA := theory_algebra (g := g) beta C1 S2
  have hb := runs_back ok hA hT (fullTraj tau n m) hs hr
  rw [fullTraj_reverse] at hb
  have hst : ∀ x ∈ box g.L, s''.1 x = s.1 x ∧ s''.2 x = s.2 x := by
    intro x hx
    subst e' e''
    refine ⟨?_, (hb x hx).2⟩
    funext mu
    have := congrFun (hb x hx).1 mu
    show -(runs g (theoryOf g beta C1 S2) (fullTraj tau n m) _).1 x mu = _
    unfold move
    rw [this]
    show - -s.1 x mu = _
    rw [neg_neg]
  have he : energy g beta C1 S1 s'' = energy g beta C1 S1 s := by
    unfold energy
    rw [quarkAction_links ok eo h1 (fun x hx => (hst x hx).2), actionSpec_congr ok (fun x hx => (hst x hx).2), kinSpec_congr (fun x hx => (hst x hx).1)]
  refine ⟨hst, ?_⟩
  rw [he]
  exact (C57_metropolis _ _).2.2

end

end Nissa.Rhmc
