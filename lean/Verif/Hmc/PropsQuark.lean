import Verif.Hmc.QuarkSpec
import Verif.Hmc.EoSum

/-! # The code of action and force of the rooted staggered pseudofermions -/

set_option linter.all false

namespace Nissa.QForce
open Nissa.Lx Nissa.Sten Nissa.Su3f Nissa.Gauge Nissa.GForce Nissa.LSm Nissa.StD Nissa.Back Nissa.CgF Nissa.Inv Matrix Complex
open scoped RealInnerProductSpace Topology

noncomputable section

/-- the solver always returns, and each field returned solves exactly its system -/
def Exact (g : Geo) (solve : Solver) : Prop := ∀ conf poles pf, (∀ p ∈ poles, 0 < p) →
  ∃ chis, solve conf poles pf = some chis ∧ List.Forall₂ (fun p chi => Solves g (globEo g conf) p (globH g pf) (globH g chi)) poles chis

/-- the flavour, on the global lattice -/
def globFl (g : Geo) (f : Flavour) : Quark := ⟨globEo g f.u1b, f.appr, f.pf.map (globH g)⟩

/-- a flavour the program can treat: rooted staggered, background field of modulus 1, positive poles -/
structure Flavour.Ok (g : Geo) (f : Flavour) : Prop where
  stag : f.rootStag = true
  unit : ∀ x ∈ box g.L, ∀ mu, globEo g f.u1b x mu * (starRingEnd ℂ) (globEo g f.u1b x mu) = 1
  poles : f.appr.Ok

section
variable {g : Geo} (ok : g.Ok) (eo : EoOk g)
include ok eo

theorem add_back_glob (J : Junk) (conf : EoConf) (u1b : Nat → Nat → Nat → Quad1) : ∀ x ∈ box g.L, globEo g (add_backfield g J conf u1b) x = dress (globEo g u1b) (globEo g conf) x := by
  intro x hx
  funext mu
  unfold add_backfield
  rw [C46_insert_eo ok eo J.ji J.jc J.jp conf false false u1b x hx]
  simp [dress]

theorem rem_back_glob (J : Junk) (conf : EoConf) (u1b : Nat → Nat → Nat → Quad1) (hu : ∀ x ∈ box g.L, ∀ mu, globEo g u1b x mu * (starRingEnd ℂ) (globEo g u1b x mu) = 1) :
    ∀ x ∈ box g.L, globEo g (rem_backfield g J (add_backfield g J conf u1b) u1b) x = globEo g conf x := by
  intro x hx
  funext mu
  unfold rem_backfield
  rw [C46_insert_eo ok eo J.ji J.jc J.jp _ true false u1b x hx, add_back_glob ok eo J conf u1b x hx]
  unfold dress
  have he : ((eta x mu : ℤ) : ℂ) * (eta x mu : ℂ) = 1 := by exact_mod_cast eta_sq x mu
  simp only [if_true, Bool.false_eq_true, if_false]
  rw [smul_smul, show (starRingEnd ℂ) (globEo g u1b x mu) * (eta x mu : ℂ) * (globEo g u1b x mu * (eta x mu : ℂ)) =
    (globEo g u1b x mu * (starRingEnd ℂ) (globEo g u1b x mu)) * ((eta x mu : ℂ) * (eta x mu : ℂ)) by ring, hu x hx, he, one_mul, one_smul]

/-! ### The force -/

theorem forceTerm_glob (J : Junk) (u1b : Nat → Nat → Nat → Quad1) (F conf1 : EoConf) (w : ℝ) (chi : EvnFld) {x : Coords} (hx : x ∈ box g.L) (mu : Dir) :
    globEo g (forceTerm g J u1b F w (apply_stDoe g J.ji J.jq J.jv conf1 chi) chi) x mu =
      globEo g F x mu + (globEo g u1b x mu * (eta x mu : ℂ)) • (w • pfForce g (globEo g conf1) (globH g chi) x mu) := by
  obtain ⟨rk, e, l, h1, h2, hr, hl, hc, hF, hG⟩ := eoSiteOf ok eo hx
  have hrk : coordOfLx rk g.R = coordOfLx rk g.R := rfl
  rw [hF, hF, hF]
  unfold pfForce
  by_cases hp : par x = 0
  · rw [hp] at hl ⊢
    have hx0 : x ∈ boxP g 0 := mem_boxP.2 ⟨hx, hp⟩
    have v := eoMem_up ok eo J.jv J.ji (fun rk _ e => apply_stDoe g J.ji J.jq J.jv conf1 chi rk e) hr (by omega) h2 hl hc mu
    have v' : hMem g J.jv (apply_stDoe g J.ji J.jq J.jv conf1 chi) (coordOfLx rk g.R) 1 (eupT g (coordOfLx rk g.R) J.ji 0 e mu) =
        odd g (globEo g conf1) (globH g chi) (tshift g x mu 1) := by
      refine (show _ = globH g (apply_stDoe g J.ji J.jq J.jv conf1 chi) (tshift g x mu 1) from v).trans ?_
      rw [C39_stDoe ok eo J.ji J.jq J.jv conf1 chi (tshift_mem_boxP ok eo hx0 mu (.inl rfl))]
      rfl
    ext i j
    unfold forceTerm
    simp only [if_true]
    rw [v', eoCoord_eq J.ji J.jc hl hc, (C46_stagphase (fun _ => 0) x mu).2, ← hG chi]
    simp only [Matrix.add_apply, Matrix.smul_apply, outer, smul_eq_mul, Complex.real_smul, Complex.star_def]
    push_cast
    ring
  · have hp1 : par x = 1 := by unfold par at *; omega
    rw [hp1] at hl ⊢
    have hx1 : x ∈ boxP g 1 := mem_boxP.2 ⟨hx, hp1⟩
    have v : hMem g J.jv chi (coordOfLx rk g.R) 0 (eupT g (coordOfLx rk g.R) J.ji 1 e mu) = globH g chi (tshift g x mu 1) :=
      eoMem_up ok eo J.jv J.ji (fun rk _ e => chi rk e) hr (by omega) h2 hl hc mu
    have v' : apply_stDoe g J.ji J.jq J.jv conf1 chi rk e = odd g (globEo g conf1) (globH g chi) x := by
      rw [← hG (apply_stDoe g J.ji J.jq J.jv conf1 chi), C39_stDoe ok eo J.ji J.jq J.jv conf1 chi hx1]
      rfl
    ext i j
    unfold forceTerm
    simp only [if_neg (show ¬(1 = 0) by decide)]
    rw [v, v', eoCoord_eq J.ji J.jc hl hc, (C46_stagphase (fun _ => 0) x mu).2]
    simp only [Matrix.add_apply, Matrix.smul_apply, Matrix.neg_apply, outer, smul_eq_mul, Complex.real_smul, Complex.star_def]
    push_cast
    ring

theorem force_fold (J : Junk) (u1b : Nat → Nat → Nat → Quad1) (conf1 : EoConf) (pf : EvnFld) (terms : List (ℝ × ℝ)) (hp : ∀ t ∈ terms, 0 < t.1) {V : Coords → Quad}
    (hV : ∀ x ∈ box g.L, globEo g conf1 x = V x) (chis : List EvnFld)
    (h : List.Forall₂ (fun p chi => Solves g (globEo g conf1) p (globH g pf) (globH g chi)) (terms.map (·.1)) chis) (F : EoConf) {x : Coords} (hx : x ∈ box g.L) (mu : Dir) :
    globEo g (((terms.map (·.2)).zip ((chis.map fun chi => apply_stDoe g J.ji J.jq J.jv conf1 chi).zip chis)).foldl (fun F t => forceTerm g J u1b F t.1 t.2.1 t.2.2) F) x mu =
      globEo g F x mu + (globEo g u1b x mu * (eta x mu : ℂ)) • (terms.map fun t => t.2 • pfForce g V (sol g V t.1 (globH g pf)) x mu).sum := by
  induction terms generalizing chis F with
  | nil => simp
  | cons t terms ih =>
    cases h with
    | cons h0 hs =>
      simp only [List.map_cons, List.zip_cons_cons, List.foldl_cons, List.sum_cons]
      rw [ih (fun t ht => hp t (by simp [ht])) _ hs, forceTerm_glob ok eo J u1b F conf1 _ _ hx mu]
      have hpos := hp t (by simp)
      have e : pfForce g (globEo g conf1) (globH g _) x mu = pfForce g V (sol g V t.1 (globH g pf)) x mu :=
        pfForce_congr ok eo hV (sol_eq ok eo hpos (solves_links ok eo hV (fun _ _ => rfl) h0)) hx mu
      rw [e, smul_add, add_assoc]

omit ok eo in
theorem poles_pos {r : Rat} (h : r.Ok) : ∀ p ∈ r.terms.map (·.1), 0 < p := by
  intro p hp
  obtain ⟨t, ht, rfl⟩ := List.mem_map.1 hp
  exact h t ht

/-- one pseudofermion -/
theorem summ_force_glob (J : Junk) {solve : Solver} (hs : Exact g solve) (F conf : EoConf) (pf : EvnFld) {f : Flavour} (hf : f.Ok g) {U : Coords → Quad}
    (hU : ∀ x ∈ box g.L, globEo g conf x = U x) :
    ∃ F' conf', summ_the_rootst_eoimpr_quark_force g J solve F conf pf f.u1b f.appr = some (F', conf') ∧ ∀ x ∈ box g.L, globEo g conf' x = U x ∧
      ∀ mu, globEo g F' x mu = globEo g F x mu + (globEo g f.u1b x mu * (eta x mu : ℂ)) • derSpec g (dress (globEo g f.u1b) U) f.appr (globH g pf) x mu := by
  obtain ⟨chis, h1, h2⟩ := hs (add_backfield g J conf f.u1b) (f.appr.terms.map (·.1)) pf (poles_pos hf.poles)
  unfold summ_the_rootst_eoimpr_quark_force
  simp only
  rw [h1]
  refine ⟨_, _, rfl, fun x hx => ⟨?_, fun mu => ?_⟩⟩
  · rw [rem_back_glob ok eo J conf f.u1b hf.unit x hx, hU x hx]
  · refine force_fold ok eo J f.u1b (add_backfield g J conf f.u1b) pf f.appr.terms hf.poles (V := dress (globEo g f.u1b) U) ?_ chis h2 F hx mu
    intro y hy
    rw [add_back_glob ok eo J conf f.u1b y hy]
    exact dress_links (fun _ _ => rfl) hU y hy

theorem pf_fold (J : Junk) {solve : Solver} (hs : Exact g solve) {f : Flavour} (hf : f.Ok g) {U : Coords → Quad} (pfs : List EvnFld) (s : EoConf × EoConf)
    (hU : ∀ x ∈ box g.L, globEo g s.2 x = U x) :
    ∃ s', pfs.foldlM (fun (s : EoConf × EoConf) p => if f.rootStag then summ_the_rootst_eoimpr_quark_force g J solve s.1 s.2 p f.u1b f.appr else none) s = some s' ∧
      ∀ x ∈ box g.L, globEo g s'.2 x = U x ∧ ∀ mu, globEo g s'.1 x mu = globEo g s.1 x mu +
        (pfs.map fun p => (globEo g f.u1b x mu * (eta x mu : ℂ)) • derSpec g (dress (globEo g f.u1b) U) f.appr (globH g p) x mu).sum := by
  induction pfs generalizing s with
  | nil => exact ⟨s, rfl, fun x hx => ⟨hU x hx, fun mu => by simp⟩⟩
  | cons p pfs ih =>
    obtain ⟨F', conf', h1, h2⟩ := summ_force_glob ok eo J hs s.1 s.2 p hf hU
    obtain ⟨s', h3, h4⟩ := ih (F', conf') fun x hx => (h2 x hx).1
    refine ⟨s', ?_, fun x hx => ⟨(h4 x hx).1, fun mu => ?_⟩⟩
    · rw [List.foldlM_cons, if_pos hf.stag, h1]
      exact h3
    · rw [(h4 x hx).2 mu, (h2 x hx).2 mu, List.map_cons, List.sum_cons, add_assoc]

theorem fl_fold (J : Junk) {solve : Solver} (hs : Exact g solve) {U : Coords → Quad} (fl : List Flavour) (hf : ∀ f ∈ fl, f.Ok g) (s : EoConf × EoConf)
    (hU : ∀ x ∈ box g.L, globEo g s.2 x = U x) :
    ∃ s', fl.foldlM (fun (s : EoConf × EoConf) f => f.pf.foldlM (fun (s : EoConf × EoConf) p =>
      if f.rootStag then summ_the_rootst_eoimpr_quark_force g J solve s.1 s.2 p f.u1b f.appr else none) s) s = some s' ∧
      ∀ x ∈ box g.L, globEo g s'.2 x = U x ∧ ∀ mu, globEo g s'.1 x mu = globEo g s.1 x mu + quarkDer g (fl.map (globFl g)) U x mu := by
  induction fl generalizing s with
  | nil => exact ⟨s, rfl, fun x hx => ⟨hU x hx, fun mu => by simp [quarkDer]⟩⟩
  | cons f fl ih =>
    obtain ⟨s1, h1, h2⟩ := pf_fold ok eo J hs (hf f (by simp)) f.pf s hU
    obtain ⟨s', h3, h4⟩ := ih (fun f hff => hf f (by simp [hff])) s1 fun x hx => (h2 x hx).1
    refine ⟨s', ?_, fun x hx => ⟨(h4 x hx).1, fun mu => ?_⟩⟩
    · rw [List.foldlM_cons, h1]
      exact h3
    · rw [(h4 x hx).2 mu, (h2 x hx).2 mu]
      unfold quarkDer
      simp only [List.map_cons, List.sum_cons, globFl, List.map_map, Function.comp_def, add_assoc]

/-- C52: `compute_quark_force`, whatever the number of ranks: if the solver is exact the routine returns, the configuration is as it was, and
the result is, for all the links of the global lattice, the force of the specification. -/
theorem C52_quark_force (J : Junk) {solve : Solver} (hs : Exact g solve) (conf : EoConf) (fl : List Flavour) (hf : ∀ f ∈ fl, f.Ok g) :
    ∃ F conf', compute_quark_force g J solve conf fl = some (F, conf') ∧ ∀ x ∈ box g.L, globEo g conf' x = globEo g conf x ∧
      ∀ mu, globEo g F x mu = quarkForce g (fl.map (globFl g)) (globEo g conf) x mu := by
  obtain ⟨s', h1, h2⟩ := fl_fold ok eo J hs (U := globEo g conf) fl hf (fun _ _ _ _ => 0, conf) fun _ _ => rfl
  unfold compute_quark_force compute_quark_force_no_stout_remapping
  rw [h1]
  refine ⟨_, _, rfl, fun x hx => ⟨(h2 x hx).1, fun mu => ?_⟩⟩
  obtain ⟨rk, e, l, -, -, -, -, -, hF, -⟩ := eoSiteOf ok eo hx
  have e1 : globEo g (compute_quark_force_finish_computation s'.1 s'.2) x mu = algPart (globEo g s'.2 x mu * globEo g s'.1 x mu) := by
    rw [hF, hF, hF]
    unfold compute_quark_force_finish_computation
    simp only
    rw [algPart_eq]
  rw [e1, (h2 x hx).1, (h2 x hx).2 mu]
  have : globEo g (fun _ _ _ _ => 0 : EoConf) x mu = 0 := by rw [hF]
  rw [this, zero_add]
  rfl

/-! ### The action -/

theorem scalar_glob {sched : Nat → Nat → List Nat} (hl : ∀ rk, Reduce.Legal (sched rk)) (a b : EvnFld) :
    realPartOfScalarProd g sched a b = (dot (boxP g 0) (globH g a) (globH g b)).re := by
  have h := reduce_eo ok eo (fun _ => sched) (fun _ => hl) (fun rk p e => if p = 0 then ∑ c, ((a rk e c).re * (b rk e c).re + (a rk e c).im * (b rk e c).im) else (0 : ℝ))
  have hv : 0 < g.locVol / 2 := by
    have h0 : 0 < g.locVol := by
      rw [locVol_eq ok]
      have := loc_pos ok
      simp only [volOfLx, dirs, List.foldl]
      have a := this 0; have b := this 1; have c := this 2; have d := this 3
      positivity
    have := even_locVol ok eo
    omega
  rw [Reduce.C11_field_reduce g.nranks sched hl _ hv (fun rk e => if (1 : Nat) = 0 then ∑ c, ((a rk e c).re * (b rk e c).re + (a rk e c).im * (b rk e c).im) else (0 : ℝ))] at h
  simp only [if_true, if_neg (show ¬(1 : Nat) = 0 by decide), Finset.sum_const_zero, add_zero] at h
  refine (show realPartOfScalarProd g sched a b = _ from h).trans ?_
  rw [sum_parities, Finset.sum_eq_zero (s := boxP g 1), add_zero]
  · unfold dot
    rw [Complex.re_sum]
    refine Finset.sum_congr rfl fun c hc => ?_
    obtain ⟨rk, e, l, -, -, -, -, -, hF, hG⟩ := eoSiteOf ok eo (mem_boxP.1 hc).1
    rw [hF, hG, hG, (mem_boxP.1 hc).2]
    simp only [if_true, dotProduct, Complex.re_sum, Pi.star_apply, Complex.star_def, Complex.mul_re, Complex.conj_re, Complex.conj_im]
    exact Finset.sum_congr rfl fun i _ => by ring
  · intro c hc
    obtain ⟨rk, e, l, -, -, -, -, -, hF, -⟩ := eoSiteOf ok eo (mem_boxP.1 hc).1
    rw [hF, (mem_boxP.1 hc).2]
    rfl

theorem inv_fold (terms : List (ℝ × ℝ)) (hp : ∀ t ∈ terms, 0 < t.1) (pf : EvnFld) (conf1 : EoConf) {V : Coords → Quad} (hV : ∀ x ∈ box g.L, globEo g conf1 x = V x) (chis : List EvnFld)
    (h : List.Forall₂ (fun p chi => Solves g (globEo g conf1) p (globH g pf) (globH g chi)) (terms.map (·.1)) chis) (c0 : EvnFld) :
    (dot (boxP g 0) (globH g ((terms.zip chis).foldl (fun chi_e wt => fun rk e c => chi_e rk e c + wt.1.2 * wt.2 rk e c) c0)) (globH g pf)).re =
      (dot (boxP g 0) (globH g c0) (globH g pf)).re + (terms.map fun t => t.2 * (dot (boxP g 0) (globH g pf) (sol g V t.1 (globH g pf))).re).sum := by
  induction terms generalizing chis c0 with
  | nil => simp
  | cons t terms ih =>
    cases h with
    | cons h0 hs =>
      rename_i chi chis
      simp only [List.map_cons, List.zip_cons_cons, List.foldl_cons, List.sum_cons]
      rw [ih (fun t ht => hp t (by simp [ht])) _ hs]
      have e1 : globH g (fun rk e c => c0 rk e c + (t.2 : ℂ) * chi rk e c) = globH g c0 + t.2 • globH g chi := by
        funext c a
        show _ = globH g c0 c a + t.2 • globH g chi c a
        rw [Complex.real_smul]
        rfl
      rw [e1, add_dot, smul_dot, dot_congr (x := globH g pf) (y := globH g chi) (sol_eq ok eo (hp t (by simp)) (solves_links ok eo hV (fun _ _ => rfl) h0)) (fun _ _ => rfl),
        ← dot_conj (boxP g 0) (globH g pf) (sol g V t.1 (globH g pf)), Complex.add_re, Complex.re_ofReal_mul, Complex.conj_re]
      ring

/-- one pseudofermion -/
theorem root_st_glob (J : Junk) {sched : Nat → Nat → List Nat} (hl : ∀ rk, Reduce.Legal (sched rk)) {solve : Solver} (hs : Exact g solve) (conf : EoConf) (pf : EvnFld) {f : Flavour} (hf : f.Ok g)
    {U : Coords → Quad} (hU : ∀ x ∈ box g.L, globEo g conf x = U x) :
    ∃ conf', compute_root_st_action g J sched solve conf f.u1b f.appr pf = some (actSpec g (dress (globEo g f.u1b) U) f.appr (globH g pf), conf') ∧
      ∀ x ∈ box g.L, globEo g conf' x = U x := by
  obtain ⟨chis, h1, h2⟩ := hs (add_backfield g J conf f.u1b) (f.appr.terms.map (·.1)) pf (poles_pos hf.poles)
  have hV : ∀ y ∈ box g.L, globEo g (add_backfield g J conf f.u1b) y = dress (globEo g f.u1b) U y := by
    intro y hy
    rw [add_back_glob ok eo J conf f.u1b y hy]
    exact dress_links (fun _ _ => rfl) hU y hy
  unfold compute_root_st_action summ_src_and_all_inv
  simp only
  rw [h1]
  refine ⟨_, ?_, fun x hx => by rw [rem_back_glob ok eo J conf f.u1b hf.unit x hx, hU x hx]⟩
  simp only [Option.map_some, Option.some.injEq, Prod.mk.injEq, and_true]
  rw [scalar_glob ok eo hl, inv_fold ok eo f.appr.terms hf.poles pf _ hV chis h2]
  unfold actSpec
  congr 1
  have e1 : globH g (fun rk e c => pf rk e c * (f.appr.cons : ℂ)) = f.appr.cons • globH g pf := by
    funext c a
    show _ = f.appr.cons • globH g pf c a
    rw [Complex.real_smul, mul_comm]
    rfl
  rw [e1, smul_dot, Complex.re_ofReal_mul]

theorem pf_fold_act (J : Junk) {sched : Nat → Nat → List Nat} (hl : ∀ rk, Reduce.Legal (sched rk)) {solve : Solver} (hs : Exact g solve) {f : Flavour} (hf : f.Ok g) {U : Coords → Quad} (pfs : List EvnFld) (s : ℝ × EoConf)
    (hU : ∀ x ∈ box g.L, globEo g s.2 x = U x) :
    ∃ conf', pfs.foldlM (fun (s : ℝ × EoConf) p => if f.rootStag then (compute_root_st_action g J sched solve s.2 f.u1b f.appr p).map fun t => (s.1 + t.1, t.2) else none) s =
      some (s.1 + (pfs.map fun p => actSpec g (dress (globEo g f.u1b) U) f.appr (globH g p)).sum, conf') ∧ ∀ x ∈ box g.L, globEo g conf' x = U x := by
  induction pfs generalizing s with
  | nil => exact ⟨s.2, by simp [pure], hU⟩
  | cons p pfs ih =>
    obtain ⟨conf', h1, h2⟩ := root_st_glob ok eo J hl hs s.2 p hf hU
    obtain ⟨conf'', h3, h4⟩ := ih (s.1 + actSpec g (dress (globEo g f.u1b) U) f.appr (globH g p), conf') h2
    refine ⟨conf'', ?_, h4⟩
    rw [List.foldlM_cons, if_pos hf.stag, h1, List.map_cons, List.sum_cons, ← add_assoc]
    exact h3

theorem fl_fold_act (J : Junk) {sched : Nat → Nat → List Nat} (hl : ∀ rk, Reduce.Legal (sched rk)) {solve : Solver} (hs : Exact g solve) {U : Coords → Quad} (fl : List Flavour) (hf : ∀ f ∈ fl, f.Ok g) (s : ℝ × EoConf)
    (hU : ∀ x ∈ box g.L, globEo g s.2 x = U x) :
    ∃ conf', fl.foldlM (fun (s : ℝ × EoConf) f => f.pf.foldlM (fun (s : ℝ × EoConf) p =>
      if f.rootStag then (compute_root_st_action g J sched solve s.2 f.u1b f.appr p).map fun t => (s.1 + t.1, t.2) else none) s) s =
      some (s.1 + quarkAction g (fl.map (globFl g)) U, conf') ∧ ∀ x ∈ box g.L, globEo g conf' x = U x := by
  induction fl generalizing s with
  | nil => exact ⟨s.2, by simp [pure, quarkAction], hU⟩
  | cons f fl ih =>
    obtain ⟨conf', h1, h2⟩ := pf_fold_act ok eo J hl hs (hf f (by simp)) f.pf s hU
    obtain ⟨conf'', h3, h4⟩ := ih (fun f hff => hf f (by simp [hff])) (s.1 + (f.pf.map fun p => actSpec g (dress (globEo g f.u1b) U) f.appr (globH g p)).sum, conf') h2
    refine ⟨conf'', ?_, h4⟩
    rw [List.foldlM_cons, h1]
    refine h3.trans ?_
    unfold quarkAction
    simp only [List.map_cons, List.sum_cons, globFl, List.map_map, Function.comp_def, add_assoc]

/-- C52: `compute_quark_action`, whatever the number of ranks and of threads: with an exact solver it returns the action of the specification, and
the configuration is as it was. -/
theorem C52_quark_action (J : Junk) {sched : Nat → Nat → List Nat} (hl : ∀ rk, Reduce.Legal (sched rk)) {solve : Solver} (hs : Exact g solve) (conf : EoConf) (fl : List Flavour) (hf : ∀ f ∈ fl, f.Ok g) :
    ∃ conf', compute_quark_action g J sched solve conf fl = some (quarkAction g (fl.map (globFl g)) (globEo g conf), conf') ∧ ∀ x ∈ box g.L, globEo g conf' x = globEo g conf x := by
  obtain ⟨conf', h1, h2⟩ := fl_fold_act ok eo J hl hs (U := globEo g conf) fl hf (0, conf) fun _ _ => rfl
  refine ⟨conf', ?_, h2⟩
  unfold compute_quark_action
  rw [h1, zero_add]

end

end

end Nissa.QForce
