import Verif.Hmc.PropsRhmc4

/-! # The step of the RHMC (C57) -/

set_option linter.all false

namespace Nissa.Rhmc
open Nissa.Lx Nissa.Sten Nissa.Su3f Nissa.Gauge Nissa.GForce Nissa.LSm Nissa.StD Nissa.Back Nissa.CgF Nissa.Inv Nissa.QForce Nissa.Omel Matrix Complex
open Nissa.Remez (RatApprox Discretiz FlavSpec root_needed set_expansions up up_inv)
open scoped RealInnerProductSpace

noncomputable section

section
variable {g : Geo} (ok : g.Ok) (eo : EoOk g)
include ok eo

/-- all the poles, after the shift, are positive -/
def Poles (n : Nat) (rat : Nat → RatApprox) : Prop := ∀ k, k < 3 * n → (toRat (rat k)).Ok

omit ok eo in
theorem flavours_ok (qs : List Fla) (hq : ∀ q ∈ qs, q.Ok g) (pf : List (List EvnFld)) {rat : Nat → RatApprox} (hr : Poles qs.length rat) {which : Nat} (hw : which < 3) :
    ∀ f ∈ flavours qs pf rat which, f.Ok g := by
  intro f hf
  obtain ⟨⟨⟨q, p⟩, i⟩, h1, rfl⟩ := List.mem_map.1 hf
  have h2 := List.mem_zipIdx h1
  simp only [List.length_zip] at h2
  have hqm : q ∈ qs := by
    have := List.fst_mem_of_mem_zipIdx h1
    exact (List.of_mem_zip this).1
  refine ⟨?_, (hq q hqm).unit, ?_⟩
  · simp [(hq q hqm).stag]
  · refine hr _ ?_
    simp only
    omega

/-- full action in case the quark action is given -/
theorem full_given (A : ActEnv) (hA : ∀ rk, Reduce.Legal (A.sched rk)) (hAH : ∀ p rk, Reduce.Legal (A.schedH p rk)) (solve : Solver) (name : ActName) (beta C1 : ℝ) (hn : c1Of name = some C1)
    (conf H : EoConf) (qs : List Fla) (hc : ∀ q ∈ qs, q.cSW = 0) (fl : List Flavour) (ext : ℝ) (he : 0 ≤ ext) :
    full_theory_action g A solve name beta conf H qs fl ext = some (ext + actionSpec beta C1 g (globEo g conf) + kinSpec g (globEo g H), conf) := by
  unfold full_theory_action
  rw [if_pos he]
  simp only [Option.bind_some]
  rw [C50_gluonic_action_eo ok eo A.ji A.jv A.jp A.sched hA conf name beta, hn, C50_momenta_action ok eo A.schedH hAH]
  simp only [Option.map_some, Option.bind_some]
  rw [if_neg (by rintro ⟨q, h1, h2⟩; exact h2 (hc q h1))]
  simp

/-- full action in case the quark action is computed -/
theorem full_computed (A : ActEnv) (hA : ∀ rk, Reduce.Legal (A.sched rk)) (hAH : ∀ p rk, Reduce.Legal (A.schedH p rk)) {solve : Solver} (hs : Exact g solve) (name : ActName) (beta C1 : ℝ) (hn : c1Of name = some C1)
    (conf H : EoConf) (qs : List Fla) (hc : ∀ q ∈ qs, q.cSW = 0) (fl : List Flavour) (hf : ∀ f ∈ fl, f.Ok g) (ext : ℝ) (he : ext < 0) :
    ∃ conf', full_theory_action g A solve name beta conf H qs fl ext =
        some (quarkAction g (fl.map (globFl g)) (globEo g conf) + actionSpec beta C1 g (globEo g conf) + kinSpec g (globEo g H), conf') ∧
      ∀ x ∈ box g.L, globEo g conf' x = globEo g conf x := by
  obtain ⟨conf', h1, h2⟩ := C52_quark_action ok eo A.J hA hs conf fl hf
  refine ⟨conf', ?_, h2⟩
  unfold full_theory_action
  rw [if_neg (not_le.2 he), h1]
  simp only [Option.bind_some]
  rw [C50_gluonic_action_eo ok eo A.ji A.jv A.jp A.sched hA conf' name beta, hn, C50_momenta_action ok eo A.schedH hAH]
  simp only [Option.map_some, Option.bind_some]
  rw [if_neg (by rintro ⟨q, h1, h2⟩; exact h2 (hc q h1)), actionSpec_congr ok h2]
  simp

/-- C57: the total action of the theory is the sum of the action of the pseudofermions, of the gauge action and of the kinetic energy -/
theorem C57_full_action (A : ActEnv) (hA : ∀ rk, Reduce.Legal (A.sched rk)) (hAH : ∀ p rk, Reduce.Legal (A.schedH p rk)) {solve : Solver} (hs : Exact g solve) (name : ActName) (beta C1 : ℝ) (hn : c1Of name = some C1)
    (conf H : EoConf) (qs : List Fla) (hc : ∀ q ∈ qs, q.cSW = 0) (fl : List Flavour) (hf : ∀ f ∈ fl, f.Ok g) (ext : ℝ) :
    ∃ conf', full_theory_action g A solve name beta conf H qs fl ext =
        some ((if 0 ≤ ext then ext else quarkAction g (fl.map (globFl g)) (globEo g conf)) + actionSpec beta C1 g (globEo g conf) + kinSpec g (globEo g H), conf') ∧
      ∀ x ∈ box g.L, globEo g conf' x = globEo g conf x := by
  by_cases he : 0 ≤ ext
  · exact ⟨conf, by rw [if_pos he]; exact full_given ok eo A hA hAH solve name beta C1 hn conf H qs hc fl ext he, fun _ _ => rfl⟩
  · rw [if_neg he]
    exact full_computed ok eo A hA hAH hs name beta C1 hn conf H qs hc fl hf ext (not_le.1 he)

/-- What is needed of the environment: legal orders of visit, exact solvers, specified gauge action. -/
structure EnvOk (g : Geo) (A A' : ActEnv) (I : IntEnv) (S : Solvers) : Prop where
  sched : ∀ rk, Reduce.Legal (A.sched rk)
  schedH : ∀ p rk, Reduce.Legal (A.schedH p rk)
  sched' : ∀ rk, Reduce.Legal (A'.sched rk)
  schedH' : ∀ p rk, Reduce.Legal (A'.schedH p rk)
  int : ∀ n k, (I.E n k).Ok
  gen : Exact g S.gen
  act : Exact g S.act
  force : Exact g S.force

/-- C57: the step.  If it returns, the approximations are those of `set_expansions` for ranges which are not empty; and if their poles, shifted
by the square mass, are positive, then: the pseudofermions are the rational functions of the noises; the new links are the projections on the
group of those at the end of the molecular dynamics trajectory which starts from the given momenta and links; and the difference of action is
the one of pseudofermions, gauge field and momenta between the end and the beginning, where for the initial pseudofermions the square norm of
the noises is taken. -/
theorem C57_step (A A' : ActEnv) (I : IntEnv) (S : Solvers) (hE : EnvOk g A A' I S) (gen : ℝ → ℝ → ℝ → Int → Int → RatApprox) (rank : Nat) (P : Pars) (C1 : ℝ) (hn : c1Of P.name = some C1)
    (tau : ℝ) (n m : Nat) (hn0 : 0 < n) (hm0 : 0 < m) (hP : P.evol = ⟨tau, n, m⟩) (qs : List Fla) (hq : ∀ q ∈ qs, q.Ok g) (hph : ∀ q ∈ qs, q.Phys g A.sched) (hc : ∀ q ∈ qs, q.cSW = 0)
    (H in_conf : EoConf) (hun : ∀ x ∈ box g.L, ∀ mu, (globEo g in_conf x mu)ᴴ * globEo g in_conf x mu = 1) (rat : Nat → RatApprox)
    (diff : ℝ) (out : EoConf) (rat' : Nat → RatApprox) (h : multipseudo_rhmc_step g A A' I S gen rank P qs H in_conf rat = some (diff, out, rat')) :
    ∃ specs, List.Forall₂ SpecOf qs specs ∧ rat' = setExpansions gen g.nranks rank P.pf_action_residue P.md_residue specs rat ∧
      ∀ ratS, ratS = shift_all_ROOT_STAG_poles qs rat' 1 → Poles qs.length ratS →
        ∃ pfs, Generated g (globEo g in_conf) ratS 0 qs pfs ∧
        ∀ S0 S1 fin, S0 = (globEo g H, globEo g in_conf) → S1 = (flavours qs pfs ratS 1).map (globFl g) →
          fin = runs g (theoryOf g P.beta C1 ((flavours qs pfs ratS 2).map (globFl g))) (fullTraj tau n m) S0 →
          (∀ x ∈ box g.L, ∀ mu, IsSU3 (globEo g out x mu) ∧ su3_unitarize_maximal_trace_projecting I.reuni (fin.2 x mu) I.precision I.niter_max = some (globEo g out x mu)) ∧
          diff = quarkAction g S1 (globEo g out) + actionSpec P.beta C1 g (globEo g out) + kinSpec g fin.1 -
            (noise2 g qs + actionSpec P.beta C1 g S0.2 + kinSpec g S0.1) := by
  obtain ⟨specs, conf1, m1, m2, m3⟩ := C57_ranges ok eo A.J hE.sched qs hq hph in_conf (fun _ _ => rfl) hun
  unfold multipseudo_rhmc_step at h
  simp only at h
  rw [m1] at h
  simp only [Option.bind_some] at h
  set r0 := setExpansions gen g.nranks rank P.pf_action_residue P.md_residue specs rat with hr0
  rw [Option.bind_eq_some_iff] at h
  obtain ⟨p, hgen, h⟩ := h
  rw [Option.bind_eq_some_iff] at h
  obtain ⟨init, hinit, h⟩ := h
  rw [Option.bind_eq_some_iff] at h
  obtain ⟨s, hs, h⟩ := h
  rw [Option.bind_eq_some_iff] at h
  obtain ⟨final, hfinal, h⟩ := h
  simp only [Option.some.injEq, Prod.mk.injEq] at h
  obtain ⟨rfl, rfl, hrat⟩ := h
  have hrat' : rat' = r0 := by rw [← hrat, C57_poles_restored]
  refine ⟨specs, m3, hrat', ?_⟩
  intro ratS hS hpol
  rw [hrat'] at hS
  rw [← hS] at hgen hinit hs hfinal
  obtain ⟨pfs, conf2, g1, g2, g3⟩ := C57_pseudofermions ok eo A.J hE.sched hE.gen qs hq ratS (fun i hi => hpol _ (by omega)) conf1 m2
  rw [g1, Option.some.injEq] at hgen
  subst hgen
  simp only at hinit hs hfinal
  refine ⟨pfs, g3, ?_⟩
  intro S0 S1 fin hS0 hS1 hfin
  subst hS0 hS1
  rw [full_given ok eo A hE.sched hE.schedH S.act P.name P.beta C1 hn conf2 H qs hc _ _ (noise2_nonneg ok eo qs), Option.some.injEq] at hinit
  subst hinit
  simp only at hs
  have hf1 := flavours_ok (g := g) qs hq pfs hpol (which := 1) (by norm_num)
  have hf2 := flavours_ok (g := g) qs hq pfs hpol (which := 2) (by norm_num)
  have hT := theory_local ok eo P.beta C1 (qok g hf2)
  have hI := C51_integrator ok eo hT (theory_quark ok eo A.J hE.force hf2 P.beta C1) I.E hE.int I.jq I.reuni I.precision I.niter_max P.name hn tau n m hn0 hm0 H conf2 s.1 s.2
    (by rw [← hP]; exact hs)
  have hag : Agree g (runs g (theoryOf g P.beta C1 ((flavours qs pfs ratS 2).map (globFl g))) (fullTraj tau n m) (globEo g H, globEo g conf2)) fin := by
    rw [hfin]
    exact runs_agree ok hT _ (fun x hx => ⟨rfl, g2 x hx⟩)
  obtain ⟨conf3, f1, f2⟩ := full_computed ok eo A' hE.sched' hE.schedH' hE.act P.name P.beta C1 hn s.2 s.1 qs hc _ hf1 (-1) (by norm_num)
  rw [f1, Option.some.injEq] at hfinal
  subst hfinal
  simp only
  constructor
  · intro x hx mu
    rw [f2 x hx, ← (hag x hx).2]
    exact (hI x hx).2 mu
  · rw [quarkAction_links ok eo (qok g hf1) f2, actionSpec_congr ok f2, actionSpec_congr ok g2, kinSpec_congr (fun x hx => (hI x hx).1.trans (hag x hx).1)]

end

end

end Nissa.Rhmc
