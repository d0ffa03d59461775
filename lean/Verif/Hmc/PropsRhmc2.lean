import Verif.Hmc.PropsRhmc
import Verif.Rational.PropsExpansions

/-! # The step of the RHMC: the code (C57) -/

set_option linter.all false

namespace Nissa.Rhmc
open Nissa.Lx Nissa.Sten Nissa.Su3f Nissa.Gauge Nissa.GForce Nissa.LSm Nissa.StD Nissa.Back Nissa.CgF Nissa.Inv Nissa.QForce Nissa.Omel Matrix Complex
open Nissa.Remez (RatApprox Discretiz FlavSpec root_needed set_expansions up up_inv)
open scoped RealInnerProductSpace

noncomputable section

/-! ### The poles -/

theorem shift_poles_eq (a : RatApprox) (sh : ℝ) : shift_all_poles a sh = { a with poles := fun i => if i < a.degree then a.poles i + sh else a.poles i } := by
  unfold shift_all_poles
  congr 1
  have := up_inv (fun m (p : Nat → ℝ) => ∀ i, p i = if i < m then a.poles i + sh else a.poles i)
    (fun iterm p => Function.update p iterm (p iterm + sh)) a.poles a.degree (fun i => by simp) (fun m _ p hp i => by
      by_cases h : i = m
      · subst h
        rw [Function.update_self, hp, if_neg (by omega), if_pos (by omega)]
      · rw [Function.update_of_ne h, hp]
        by_cases h2 : i < m
        · rw [if_pos h2, if_pos (by omega)]
        · rw [if_neg h2, if_neg (by omega)])
  exact funext this

theorem shift_shift (a : RatApprox) (s t : ℝ) : shift_all_poles (shift_all_poles a s) t = shift_all_poles a (s + t) := by
  rw [shift_poles_eq, shift_poles_eq, shift_poles_eq]
  congr 1
  funext i
  by_cases h : i < a.degree
  · simp only [h, if_true]; ring
  · simp only [h, if_false]

theorem shift_zero (a : RatApprox) : shift_all_poles a 0 = a := by
  rw [shift_poles_eq]
  simp

/-- the shift of the poles is a shift of the variable -/
theorem ratFun_shift (a : RatApprox) (sh x : ℝ) : ratFun (toRat (shift_all_poles a sh)) x = a.eval (x + sh) := by
  rw [shift_poles_eq]
  unfold ratFun toRat RatApprox.eval
  simp only [List.map_map, Function.comp_def]
  congr 1
  rw [Finset.sum_range, ← List.sum_ofFn, List.ofFn_eq_map, ← List.map_coe_finRange_eq_range, List.map_map]
  refine congrArg List.sum (List.map_congr_left fun i _ => ?_)
  simp only [Function.comp_def, i.2, if_true]
  ring_nf

/-- the amount of which the poles of the approximation `k` are shifted -/
def shiftOf (qs : List Fla) (k : Nat) : ℝ :=
  match qs[k / 3]? with
  | some q => if q.discretiz = .ROOT_STAG then q.mass ^ 2 else 0
  | none => 0

theorem shiftAll_eq (qs : List Fla) (rat : Nat → RatApprox) (sign : ℝ) : shift_all_ROOT_STAG_poles qs rat sign = fun k => shift_all_poles (rat k) (sign * shiftOf qs k) := by
  unfold shift_all_ROOT_STAG_poles
  have key := up_inv (fun m (r : Nat → RatApprox) => ∀ k, r k = if k < 3 * m then shift_all_poles (rat k) (sign * shiftOf qs k) else rat k)
    (fun iflav rat => match qs[iflav]? with
      | some q => if q.discretiz = .ROOT_STAG then
          up 3 (fun i rat => Function.update rat (iflav * 3 + i) (shift_all_poles (rat (iflav * 3 + i)) (sign * q.mass ^ 2))) rat else rat
      | none => rat) rat qs.length (fun k => by simp) ?_
  · funext k
    refine (key k).trans ?_
    by_cases h : k < 3 * qs.length
    · rw [if_pos h]
    · rw [if_neg h]
      unfold shiftOf
      rw [List.getElem?_eq_none (by omega)]
      simp [shift_zero]
  · intro m hm r hr k
    simp only [List.getElem?_eq_getElem hm]
    by_cases hs : (qs[m]).discretiz = .ROOT_STAG
    · rw [if_pos hs]
      have h3 := up_inv (fun j (r : Nat → RatApprox) => ∀ k, r k = if k < 3 * m + j then shift_all_poles (rat k) (sign * shiftOf qs k) else rat k)
        (fun i rat => Function.update rat (m * 3 + i) (shift_all_poles (rat (m * 3 + i)) (sign * (qs[m]).mass ^ 2))) r 3 (by simpa using hr) (fun j hj r hr k => by
          have hk3 : (m * 3 + j) / 3 = m := by omega
          by_cases h : k = m * 3 + j
          · subst h
            rw [Function.update_self, hr, if_neg (by omega), if_pos (by omega)]
            unfold shiftOf
            rw [hk3, List.getElem?_eq_getElem hm]
            simp only [hs, if_true]
          · rw [Function.update_of_ne h, hr]
            by_cases h2 : k < 3 * m + j
            · rw [if_pos h2, if_pos (by omega)]
            · rw [if_neg h2, if_neg (by omega)])
      rw [h3 k]
      congr 1
    · rw [if_neg hs, hr k]
      by_cases h : k < 3 * m
      · rw [if_pos h, if_pos (by omega)]
      · rw [if_neg h]
        by_cases h2 : k < 3 * (m + 1)
        · rw [if_pos h2]
          unfold shiftOf
          rw [show k / 3 = m by omega, List.getElem?_eq_getElem hm]
          simp [hs, shift_zero]
        · rw [if_neg h2]

/-- C57: after the step the poles are back where `set_expansions` had left them. -/
theorem C57_poles_restored (qs : List Fla) (rat : Nat → RatApprox) : shift_all_ROOT_STAG_poles qs (shift_all_ROOT_STAG_poles qs rat 1) (-1) = rat := by
  rw [shiftAll_eq, shiftAll_eq]
  funext k
  beta_reduce
  rw [shift_shift, show 1 * shiftOf qs k + -1 * shiftOf qs k = 0 by ring, shift_zero]

/-! ### Pseudofermions -/

section
variable {g : Geo} (ok : g.Ok) (eo : EoOk g)
include ok eo

theorem norm2_glob {sched : Nat → Nat → List Nat} (hl : ∀ rk, Reduce.Legal (sched rk)) (v : EvnFld) : norm2 g sched v = (dot (boxP g 0) (globH g v) (globH g v)).re :=
  scalar_glob ok eo hl v v

omit ok eo in
theorem fold_apply (terms : List (ℝ × ℝ)) (chis : List EvnFld) (c0 : EvnFld) (s : List (Coords → Col)) (c : Coords)
    (h : List.Forall₂ (fun (chi : EvnFld) (x : Coords → Col) => globH g chi c = x c) chis s) :
    globH g ((terms.zip chis).foldl (fun (chi_e : EvnFld) (wt : (ℝ × ℝ) × EvnFld) => (fun rk e c => chi_e rk e c + wt.1.2 * wt.2 rk e c : EvnFld)) c0) c =
      globH g c0 c + ((terms.zip s).map fun t => t.1.2 • t.2).sum c := by
  induction terms generalizing chis s c0 with
  | nil => simp
  | cons t terms ih =>
    cases h with
    | nil => simp
    | cons h0 hs =>
      rename_i chi x chis s
      simp only [List.zip_cons_cons, List.foldl_cons, List.map_cons, List.sum_cons]
      rw [ih chis _ s hs]
      have e1 : globH g (fun rk e c => c0 rk e c + (t.2 : ℂ) * chi rk e c) c = globH g c0 c + t.2 • x c := by
        rw [← h0]
        funext a
        show _ = globH g c0 c a + t.2 • globH g chi c a
        rw [Complex.real_smul]
        rfl
      rw [e1, Pi.add_apply, Pi.smul_apply, add_assoc]

theorem zip_self_map {α β : Type} (l : List α) (f : α → β) : l.zip (l.map f) = l.map fun a => (a, f a) := by
  induction l with
  | nil => rfl
  | cons a l ih => simp [ih]

/-- one pseudofermion: field, configuration -/
theorem generate_root_glob (J : Junk) {solve : Solver} (hs : Exact g solve) (conf : EoConf) (u1b : Nat → Nat → Nat → Quad1) {r : QForce.Rat} (hr : r.Ok) (eta : EvnFld)
    (hu : ∀ x ∈ box g.L, ∀ mu, globEo g u1b x mu * (starRingEnd ℂ) (globEo g u1b x mu) = 1) {U : Coords → Quad} (hU : ∀ x ∈ box g.L, globEo g conf x = U x) :
    ∃ pf conf', generate_root_stag_pseudo_fermion g J solve conf u1b r eta = some (pf, conf') ∧ (∀ x ∈ box g.L, globEo g conf' x = U x) ∧
      ∀ c ∈ boxP g 0, globH g pf c = ratApply g (dress (globEo g u1b) U) r (globH g eta) c := by
  obtain ⟨chis, h1, h2⟩ := hs (add_backfield g J conf u1b) (r.terms.map (·.1)) eta (poles_pos hr)
  have hV : ∀ y ∈ box g.L, globEo g (add_backfield g J conf u1b) y = dress (globEo g u1b) U y := by
    intro y hy
    rw [add_back_glob ok eo J conf u1b y hy]
    exact dress_links (fun _ _ => rfl) hU y hy
  unfold generate_root_stag_pseudo_fermion summ_src_and_all_inv
  simp only
  rw [h1]
  refine ⟨_, _, rfl, fun x hx => by rw [rem_back_glob ok eo J conf u1b hu x hx, hU x hx], fun c hc => ?_⟩
  rw [fold_apply r.terms chis _ (r.terms.map fun t => sol g (dress (globEo g u1b) U) t.1 (globH g eta)) c]
  · unfold ratApply
    rw [zip_self_map ok eo, Pi.add_apply, List.map_map]
    congr 1
    funext a
    show globH g eta c a * (r.cons : ℂ) = r.cons • globH g eta c a
    rw [Complex.real_smul, mul_comm]
  · rw [List.forall₂_map_left_iff] at h2
    rw [List.forall₂_map_right_iff]
    refine List.Forall₂.flip ?_
    have : ∀ (l : List (ℝ × ℝ)), (∀ t ∈ l, 0 < t.1) → ∀ chis : List EvnFld, List.Forall₂ (fun (a : ℝ × ℝ) chi => Solves g (globEo g (add_backfield g J conf u1b)) a.1 (globH g eta) (globH g chi)) l chis →
        List.Forall₂ (fun (b : ℝ × ℝ) (a : EvnFld) => globH g a c = sol g (dress (globEo g u1b) U) b.1 (globH g eta) c) l chis := by
      intro l hl chis h
      induction h with
      | nil => exact .nil
      | cons h0 _ ih =>
        rename_i t chi _ _ _
        refine .cons ?_ (ih fun t ht => hl t (by simp [ht]))
        exact sol_eq ok eo (hl t (by simp)) (solves_links ok eo hV (fun _ _ => rfl) h0) c hc
    exact this _ hr _ h2

/-- a quark the program can treat, with its approximations: rooted staggered, background field of modulus 1, no clover term -/
structure Fla.Ok (g : Geo) (q : Fla) : Prop where
  stag : q.discretiz = .ROOT_STAG
  unit : ∀ x ∈ box g.L, ∀ mu, globEo g q.u1b x mu * (starRingEnd ℂ) (globEo g q.u1b x mu) = 1

theorem generateFlavour_glob (J : Junk) {sched : Nat → Nat → List Nat} (hl : ∀ rk, Reduce.Legal (sched rk)) {solve : Solver} (hs : Exact g solve) {q : Fla} (hq : q.Ok g) {r : QForce.Rat} (hr : r.Ok) (act : ℝ) (conf : EoConf)
    {U : Coords → Quad} (hU : ∀ x ∈ box g.L, globEo g conf x = U x) :
    ∃ pfs conf', generateFlavour g J sched solve q r act conf = some (pfs, act + (q.etas.map fun eta => (dot (boxP g 0) (globH g eta) (globH g eta)).re).sum, conf') ∧
      (∀ x ∈ box g.L, globEo g conf' x = U x) ∧
      List.Forall₂ (fun eta pf => ∀ c ∈ boxP g 0, globH g pf c = ratApply g (dress (globEo g q.u1b) U) r (globH g eta) c) q.etas pfs := by
  have key : ∀ (etas : List EvnFld) (done : List EvnFld) (act : ℝ) (conf : EoConf), (∀ x ∈ box g.L, globEo g conf x = U x) →
      ∃ pfs conf', etas.foldlM (fun (s : List EvnFld × ℝ × EoConf) eta =>
        (generate_pseudo_fermion g J sched solve s.2.2 q r eta).map fun t => (s.1 ++ [t.1], s.2.1 + t.2.1, t.2.2)) (done, act, conf) =
          some (done ++ pfs, act + (etas.map fun eta => (dot (boxP g 0) (globH g eta) (globH g eta)).re).sum, conf') ∧
      (∀ x ∈ box g.L, globEo g conf' x = U x) ∧
      List.Forall₂ (fun eta pf => ∀ c ∈ boxP g 0, globH g pf c = ratApply g (dress (globEo g q.u1b) U) r (globH g eta) c) etas pfs := by
    intro etas
    induction etas with
    | nil =>
      intro done act conf hU
      exact ⟨[], conf, by simp [pure], hU, .nil⟩
    | cons eta etas ih =>
      intro done act conf hU
      obtain ⟨pf, conf1, h1, h2, h3⟩ := generate_root_glob ok eo J hs conf q.u1b hr eta hq.unit hU
      obtain ⟨pfs, conf', k1, k2, k3⟩ := ih (done ++ [pf]) (act + norm2 g sched eta) conf1 h2
      refine ⟨pf :: pfs, conf', ?_, k2, .cons h3 k3⟩
      rw [List.foldlM_cons]
      unfold generate_pseudo_fermion
      simp only
      rw [if_pos hq.stag, h1]
      refine Eq.trans ?_ (k1.trans ?_)
      · rfl
      · rw [norm2_glob ok eo hl]
        simp [add_assoc]
  obtain ⟨pfs, conf', h1, h2, h3⟩ := key q.etas [] act conf hU
  exact ⟨pfs, conf', by unfold generateFlavour; rw [h1]; simp, h2, h3⟩

/-- the pseudofermions generated from the noises -/
def Generated (g : Geo) (U : Coords → Quad) (rat : Nat → RatApprox) : Nat → List Fla → List (List EvnFld) → Prop
  | _, [], [] => True
  | i, q :: qs, pf :: pfs => List.Forall₂ (fun eta p => ∀ c ∈ boxP g 0, globH g p c = ratApply g (dress (globEo g q.u1b) U) (toRat (rat (3 * i))) (globH g eta) c) q.etas pf ∧
      Generated g U rat (i + 1) qs pfs
  | _, _, _ => False

/-- the square norm of all the noises -/
def noise2 (g : Geo) (qs : List Fla) : ℝ := (qs.map fun q => (q.etas.map fun eta => (dot (boxP g 0) (globH g eta) (globH g eta)).re).sum).sum

omit ok eo in
theorem noise2_nonneg (ok : g.Ok) (eo : EoOk g) (qs : List Fla) : 0 ≤ noise2 g qs := by
  refine List.sum_nonneg fun x hx => ?_
  obtain ⟨q, -, rfl⟩ := List.mem_map.1 hx
  refine List.sum_nonneg fun x hx => ?_
  obtain ⟨eta, -, rfl⟩ := List.mem_map.1 hx
  exact (dot_self_nonneg ok eo (boxP g 0) (globH g eta)).1

/-- C57: `generate_pseudofermions` returns the square norm of the noises, restores the configuration, and each pseudofermion is the rational
function of the first approximation of its flavour, of `D^+ D`, applied to its noise. -/
theorem C57_pseudofermions (J : Junk) {sched : Nat → Nat → List Nat} (hl : ∀ rk, Reduce.Legal (sched rk)) {solve : Solver} (hs : Exact g solve) (qs : List Fla) (hq : ∀ q ∈ qs, q.Ok g) (rat : Nat → RatApprox)
    (hr : ∀ i, i < qs.length → (toRat (rat (3 * i))).Ok) (conf : EoConf) {U : Coords → Quad} (hU : ∀ x ∈ box g.L, globEo g conf x = U x) :
    ∃ pfs conf', generate_pseudofermions g J sched solve conf qs rat = some (pfs, noise2 g qs, conf') ∧ (∀ x ∈ box g.L, globEo g conf' x = U x) ∧ Generated g U rat 0 qs pfs := by
  have key : ∀ (qs : List Fla) (i : Nat) (done : List (List EvnFld)) (act : ℝ) (conf : EoConf), (∀ q ∈ qs, q.Ok g) → (∀ j, i ≤ j → j < i + qs.length → (toRat (rat (3 * j))).Ok) →
      (∀ x ∈ box g.L, globEo g conf x = U x) →
      ∃ pfs conf', (qs.zipIdx i).foldlM (fun (s : List (List EvnFld) × ℝ × EoConf) qi =>
        (generateFlavour g J sched solve qi.1 (toRat (rat (3 * qi.2 + 0))) s.2.1 s.2.2).map fun t => (s.1 ++ [t.1], t.2.1, t.2.2)) (done, act, conf) =
          some (done ++ pfs, act + noise2 g qs, conf') ∧ (∀ x ∈ box g.L, globEo g conf' x = U x) ∧ Generated g U rat i qs pfs := by
    intro qs
    induction qs with
    | nil =>
      intro i done act conf _ _ hU
      exact ⟨[], conf, by simp [pure, noise2], hU, trivial⟩
    | cons q qs ih =>
      intro i done act conf hq hr hU
      obtain ⟨pf, conf1, h1, h2, h3⟩ := generateFlavour_glob ok eo J hl hs (hq q (by simp)) (hr i (le_refl i) (by simp)) act conf hU
      obtain ⟨pfs, conf', k1, k2, k3⟩ := ih (i + 1) (done ++ [pf]) (act + (q.etas.map fun eta => (dot (boxP g 0) (globH g eta) (globH g eta)).re).sum) conf1
        (fun q' hq' => hq q' (by simp [hq'])) (fun j h1 h2 => hr j (by omega) (by simp only [List.length_cons]; omega)) h2
      refine ⟨pf :: pfs, conf', ?_, k2, h3, k3⟩
      rw [List.zipIdx_cons, List.foldlM_cons]
      simp only [add_zero]
      rw [h1]
      refine Eq.trans ?_ (k1.trans ?_)
      · rfl
      · simp [noise2, add_assoc]
  obtain ⟨pfs, conf', h1, h2, h3⟩ := key qs 0 [] 0 conf hq (fun j _ h => hr j (by omega)) hU
  exact ⟨pfs, conf', by unfold generate_pseudofermions; rw [h1]; simp, h2, h3⟩

end

end

end Nissa.Rhmc
