import Verif.Dirac.PropsClover
import Verif.Hmc.PropsBackfield2
import Mathlib.Algebra.BigOperators.Field
import Mathlib.Algebra.Order.BigOperators.Group.List

/-! # Boundary conditions, cold start and energy of a gauge configuration (C47)

Models `put_boundaries_conditions`, `rem_boundaries_conditions`, `adapt_theta`, `generate_cold_eo_conf` and
`average_gauge_energy` of `/repo/src/operations/gaugeconf.cpp`.  Exact real arithmetic. -/

set_option linter.all false

namespace Nissa.GConf
open Nissa.Lx Nissa.Sten Nissa.Gauge Nissa.Su3f Nissa.Paths Nissa.Clv Nissa.Back Matrix

noncomputable section

/-- a `Momentum` -/
abbrev Theta := Dir → ℝ

/-- `theta[idir]={cos(theta_in_pi*M_PI/glbSize),sin(...)}`.  `/repo/src/operations/gaugeconf.cpp:129-134` -/
def bcPhase (g : Geo) (th : Theta) (mu : Dir) : ℂ := cis (th mu * Real.pi / g.L mu)

/-- number of sites treated.  `/repo/src/operations/gaugeconf.cpp:136-138`; the code stores it in an `int`, the truncation is not modelled -/
def bcSites (g : Geo) (putonbords putonedges : Bool) : Nat :=
  let nsite := g.locVol
  let nsite := if putonbords then nsite + g.bordVol else nsite
  if putonedges then nsite + g.edgeVol else nsite

/-- `put_boundaries_conditions` on the memory (local sites, then halo, then edges) of each rank.
`/repo/src/operations/gaugeconf.cpp:124-148` -/
def put_boundaries_conditions (g : Geo) (conf : Nat → Nat → Quad) (th : Theta) (pb pe : Bool) : Nat → Nat → Quad :=
  fun rk ivol => if ivol < bcSites g pb pe then (fun idir => bcPhase g th idir • conf rk ivol idir) else conf rk ivol

/-- `rem_boundaries_conditions`.  `/repo/src/operations/gaugeconf.cpp:150-157` -/
def rem_boundaries_conditions (g : Geo) (conf : Nat → Nat → Quad) (th : Theta) (pb pe : Bool) : Nat → Nat → Quad :=
  put_boundaries_conditions g conf ![-th 0, -th 1, -th 2, -th 3] pb pe

open Classical in
/-- `adapt_theta`: the new configuration and the new content of `old_theta`.  `/repo/src/operations/gaugeconf.cpp:159-182` -/
def adapt_theta (g : Geo) (conf : Nat → Nat → Quad) (old_theta put_theta : Theta) (pb pe : Bool) : (Nat → Nat → Quad) × Theta :=
  let st := dirs.foldl (fun (s : Bool × Theta × Theta) idir =>
    (s.1 || decide (s.2.2 idir ≠ put_theta idir), Function.update s.2.1 idir (put_theta idir - s.2.2 idir),
      Function.update s.2.2 idir (put_theta idir))) (false, (fun _ => 0), old_theta)
  (if st.1 then put_boundaries_conditions g conf st.2.1 pb pe else conf, st.2.2)

/-- `generate_cold_eo_conf`.  `/repo/src/operations/gaugeconf.cpp:185-197` -/
def generate_cold_eo_conf : Nat → Nat → Nat → Quad := fun _ _ _ _ => 1

/-- the energy of one site.  `/repo/src/operations/gaugeconf.cpp:328-346`; `l0` the content of the uninitialised `leaves` -/
def pointEnergy (g : Geo) (leaves : As2t) : ℝ :=
  let e := (List.finRange 6).foldl (fun (en : ℝ) i =>
    let A := leaves i - (leaves i)ᴴ
    let A := ((1 / 8 : ℝ) : ℂ) • A
    en - (A * A).trace.re) 0
  e / g.glbVol

/-- `average_gauge_energy`.  `/repo/src/operations/gaugeconf.cpp:318-352` -/
def average_gauge_energy (g : Geo) (ji : Nat) (jq : Quad) (l0 : As2t) (sched : Nat → Nat → List Nat) (conf : Nat → Nat → Quad) : ℝ :=
  ∑ rk ∈ Finset.range g.nranks, Reduce.reduceNoPreserve (· + ·) (sched rk) g.locVol (fun ivol =>
    let r := coordOfLx rk g.R
    pointEnergy g (four_leaves_point (upT g r ji) (dwT g r ji) (mem g jq conf r) ivol l0))

/-! ### Specification -/

/-- net number of steps of a path along a direction -/
def steps (l : List Move) (mu : Dir) : Int := (l.map (fun m => if m.1 = mu then (if m.2 then 1 else -1) else 0)).sum

/-- squared norm of the field strength at a site: sum over the planes of the squared moduli of the elements -/
def energyDensity (g : Geo) (U : Coords → Quad) (x : Coords) : ℝ :=
  (planes.map (fun mn => ∑ i, ∑ j, Complex.normSq (Fst g U x mn.1 mn.2 i j))).sum

/-! ### Theorems on the boundary conditions -/

theorem adapt_val (g : Geo) (conf : Nat → Nat → Quad) (old put : Theta) (pb pe : Bool) : adapt_theta g conf old put pb pe =
    (put_boundaries_conditions g conf (fun mu => put mu - old mu) pb pe, put) := by
  classical
  have h2 : (fun mu => put mu) = put := rfl
  unfold adapt_theta dirs
  simp only [List.foldl_cons, List.foldl_nil]
  have e1 : Function.update (Function.update (Function.update (Function.update old 0 (put 0)) 1 (put 1)) 2 (put 2)) 3 (put 3) = put := by
    funext mu; fin_cases mu <;> simp [Function.update]
  have e2 : Function.update (Function.update (Function.update (Function.update (fun _ => (0 : ℝ)) 0 (put 0 - old 0)) 1
      (put 1 - (Function.update old 0 (put 0)) 1)) 2 (put 2 - (Function.update (Function.update old 0 (put 0)) 1 (put 1)) 2)) 3
      (put 3 - (Function.update (Function.update (Function.update old 0 (put 0)) 1 (put 1)) 2 (put 2)) 3) = fun mu => put mu - old mu := by
    funext mu; fin_cases mu <;> simp [Function.update]
  rw [e1]
  refine Prod.ext ?_ rfl
  simp only
  rw [e2]
  have key : ∀ (b : Bool) (A B : Nat → Nat → Quad), (b = false → B = A) → (if b = true then A else B) = A := by
    intro b A B h; cases b
    · simpa using h
    · rfl
  apply key
  intro h
  have hz : ∀ mu, old mu = put mu := by
    simp [Function.update] at h
    intro mu; fin_cases mu <;> simp <;> tauto
  unfold put_boundaries_conditions
  funext rk i
  by_cases hi : i < bcSites g pb pe
  · rw [if_pos hi]
    funext mu
    rw [bcPhase, hz, sub_self, zero_mul, zero_div, cis_zero, one_smul]
  · rw [if_neg hi]

theorem bcSites_ge (g : Geo) (pb pe : Bool) : g.locVol ≤ bcSites g pb pe := by
  unfold bcSites
  cases pb <;> cases pe <;> simp <;> omega

/-- C47: the links of the lattice after the boundary conditions are put. -/
theorem C47_put {g : Geo} (ok : g.Ok) (conf : Nat → Nat → Quad) (th : Theta) (pb pe : Bool) (x : Coords) (hx : x ∈ box g.L) (mu : Dir) :
    glob g (put_boundaries_conditions g conf th pb pe) x mu = cis (Real.pi * th mu / g.L mu) • glob g conf x mu := by
  obtain ⟨rk, i, hrk, hi, hr, hc, hG⟩ := lxSite ok hx
  rw [hG, hG]
  unfold put_boundaries_conditions bcPhase
  rw [if_pos (lt_of_lt_of_le hi (bcSites_ge g pb pe)), mul_comm (th mu)]

/-- C47: removing the boundary conditions which were put gives back the memory of all the ranks, halo included. -/
theorem C47_rem_put (g : Geo) (conf : Nat → Nat → Quad) (th : Theta) (pb pe : Bool) :
    rem_boundaries_conditions g (put_boundaries_conditions g conf th pb pe) th pb pe = conf := by
  funext rk i
  unfold rem_boundaries_conditions put_boundaries_conditions
  by_cases h : i < bcSites g pb pe
  · simp only [if_pos h]
    funext mu
    have e : (![-th 0, -th 1, -th 2, -th 3] : Theta) mu = -th mu := by fin_cases mu <;> rfl
    unfold bcPhase
    rw [e, smul_smul, ← cis_add, show -th mu * Real.pi / g.L mu + th mu * Real.pi / g.L mu = 0 by ring, cis_zero, one_smul]
  · simp only [if_neg h]

/-- a sequence of calls of `adapt_theta`, each with its own flags -/
def adaptAll (g : Geo) (st : (Nat → Nat → Quad) × Theta) (reqs : List (Theta × Bool × Bool)) : (Nat → Nat → Quad) × Theta :=
  reqs.foldl (fun st rq => adapt_theta g st.1 st.2 rq.1 rq.2.1 rq.2.2) st

/-- C47: after any history of changes of the boundary conditions, the configuration is the starting one times the phases of the
difference between the last requested condition and the starting one: no memory of the intermediate ones is left. -/
theorem C47_history {g : Geo} (ok : g.Ok) (reqs : List (Theta × Bool × Bool)) : ∀ (conf : Nat → Nat → Quad) (th0 : Theta),
    (adaptAll g (conf, th0) reqs).2 = (reqs.map Prod.fst).getLastD th0 ∧
    ∀ x ∈ box g.L, ∀ mu, glob g (adaptAll g (conf, th0) reqs).1 x mu =
      cis (Real.pi * ((reqs.map Prod.fst).getLastD th0 mu - th0 mu) / g.L mu) • glob g conf x mu := by
  induction reqs with
  | nil =>
      intro conf th0
      refine ⟨rfl, fun x _ mu => ?_⟩
      simp [adaptAll, cis_zero]
  | cons rq reqs ih =>
      intro conf th0
      have e : adaptAll g (conf, th0) (rq :: reqs) = adaptAll g (put_boundaries_conditions g conf (fun mu => rq.1 mu - th0 mu) rq.2.1 rq.2.2, rq.1) reqs := by
        unfold adaptAll
        rw [List.foldl_cons, adapt_val]
      rw [e]
      obtain ⟨h1, h2⟩ := ih (put_boundaries_conditions g conf (fun mu => rq.1 mu - th0 mu) rq.2.1 rq.2.2) rq.1
      rw [List.map_cons, List.getLastD_cons]
      refine ⟨h1, fun x hx mu => ?_⟩
      rw [h2 x hx mu, C47_put ok _ _ _ _ x hx mu, smul_smul, ← cis_add]
      congr 2
      ring

/-- C47: the product of the links along any path is multiplied by `exp(i pi sum_mu theta_mu n_mu/L_mu)`, with `n_mu` the net number of
steps along `mu`; hence what closes without winding is unchanged, and what winds `w` times along `mu` takes `exp(i pi theta_mu w)`. -/
theorem C47_paths {g : Geo} (ok : g.Ok) (conf : Nat → Nat → Quad) (th : Theta) (pb pe : Bool) (l : List Move) :
    ∀ (x : Coords), x ∈ box g.L → pathProd g (glob g (put_boundaries_conditions g conf th pb pe)) x l =
      cis (Real.pi * ∑ mu : Dir, th mu * steps l mu / g.L mu) • pathProd g (glob g conf) x l := by
  induction l with
  | nil =>
      intro x _
      simp [pathProd, steps, cis_zero]
  | cons m l ih =>
      intro x hx
      obtain ⟨nu, d⟩ := m
      have hs : ∀ mu, steps ((nu, d) :: l) mu = (if nu = mu then (if d then 1 else -1) else 0) + steps l mu := by
        intro mu; unfold steps; rw [List.map_cons, List.sum_cons]
      have hsum : Real.pi * ∑ mu : Dir, th mu * steps ((nu, d) :: l) mu / g.L mu =
          Real.pi * (if d then 1 else -1) * th nu / g.L nu + Real.pi * ∑ mu : Dir, th mu * steps l mu / g.L mu := by
        simp only [hs]
        rw [Finset.sum_congr rfl (g := fun mu => (if nu = mu then (if d then (1 : ℝ) else -1) * th mu / g.L mu else 0) + th mu * steps l mu / g.L mu)]
        · rw [Finset.sum_add_distrib, Finset.sum_ite_eq]
          simp only [Finset.mem_univ, if_true]
          ring
        · intro mu _
          split <;> cases d <;> push_cast <;> simp <;> ring
      rw [hsum, cis_add]
      cases d
      · have hy := tshift_mem_box ok hx nu (-1)
        show (glob g (put_boundaries_conditions g conf th pb pe) (tshift g x nu (-1)) nu)ᴴ * pathProd g (glob g (put_boundaries_conditions g conf th pb pe)) (tshift g x nu (-1)) l = _ • ((glob g conf (tshift g x nu (-1)) nu)ᴴ * pathProd g (glob g conf) (tshift g x nu (-1)) l)
        rw [C47_put ok _ _ _ _ _ hy, ih _ hy, conjTranspose_smul, Matrix.smul_mul, Matrix.mul_smul, smul_smul, Complex.star_def, cis_conj]
        congr 3
        simp; ring
      · have hy := tshift_mem_box ok hx nu 1
        show glob g (put_boundaries_conditions g conf th pb pe) x nu * pathProd g (glob g (put_boundaries_conditions g conf th pb pe)) (tshift g x nu 1) l = _ • (glob g conf x nu * pathProd g (glob g conf) (tshift g x nu 1) l)
        rw [C47_put ok _ _ _ _ _ hx, ih _ hy, Matrix.smul_mul, Matrix.mul_smul, smul_smul]
        congr 3
        simp

/-- C47: the phase taken going once around the lattice is `exp(i pi theta)`. -/
theorem C47_winding {g : Geo} (ok : g.Ok) (conf : Nat → Nat → Quad) (th : Theta) (pb pe : Bool) (mu : Dir) (x : Coords) (hx : x ∈ box g.L) :
    pathProd g (glob g (put_boundaries_conditions g conf th pb pe)) x (List.replicate (g.L mu) (mu, true)) =
      cis (Real.pi * th mu) • pathProd g (glob g conf) x (List.replicate (g.L mu) (mu, true)) := by
  rw [C47_paths ok conf th pb pe _ x hx]
  congr 2
  have hL : (g.L mu : ℝ) ≠ 0 := by have := L_two ok mu; positivity
  have hst : ∀ nu, steps (List.replicate (g.L mu) (mu, true)) nu = if mu = nu then (g.L mu : Int) else 0 := by
    intro nu; unfold steps
    rw [List.map_replicate, List.sum_replicate]
    split <;> simp
  simp only [hst]
  rw [Finset.sum_eq_single mu]
  · rw [if_pos rfl]; push_cast; field_simp
  · intro nu _ hne; rw [if_neg (Ne.symm hne)]; simp
  · simp

/-- every site known to the rank, up to `n`, holds the value of the global field -/
def Synced (g : Geo) (conf : Nat → Nat → Quad) (n : Nat) : Prop :=
  ∀ rk, rk < g.nranks → ∀ i, i < n → ∀ c, glbCoordOfLoclx g (coordOfLx rk g.R) i = some c → conf rk i = glob g conf c

/-- C47: if halo (and edges) were in agreement with the other ranks, they stay so, if the conditions are put on the halo (on halo and edges). -/
theorem C47_halo_agrees {g : Geo} (ok : g.Ok) (conf : Nat → Nat → Quad) (th : Theta) (pe : Bool) {n : Nat} (hn : n ≤ allVol g)
    (hsite : n ≤ g.locVol + g.bordVol ∨ pe = true) (h : Synced g conf n) :
    Synced g (put_boundaries_conditions g conf th true pe) n := by
  intro rk hrk i hi c hc
  have hb : bcSites g true pe = g.locVol + g.bordVol + (if pe then g.edgeVol else 0) := by
    unfold bcSites; cases pe <;> simp
  have hi' : i < bcSites g true pe := by
    rw [hb]; unfold allVol at hn
    rcases hsite with h | h
    · omega
    · rw [h]; simp; omega
  have hcb : c ∈ box g.L := mem_box.2 (glbCoord_lt ok _ (by omega) hc)
  funext mu
  rw [C47_put ok _ _ _ _ c hcb, ← h rk hrk i hi c hc]
  unfold put_boundaries_conditions
  rw [if_pos hi', bcPhase, mul_comm (th mu)]

/-- a lattice split along two directions -/
def bcGeo : Geo := ⟨![4, 4, 4, 4], ![2, 2, 1, 1]⟩

/-- C47 (violated): with the flag of the edges but not that of the halo, the first elements of the halo are treated and the edges are not. -/
theorem C47_violated_edges_only : bcGeo.Ok ∧ 0 < bcGeo.edgeVol ∧
    ∀ conf : Nat → Nat → Quad, (∀ rk i mu, conf rk i mu = 1) → ∀ i, bcGeo.locVol + bcGeo.bordVol ≤ i → i < allVol bcGeo → ∀ rk,
      put_boundaries_conditions bcGeo conf (fun _ => 1) false true rk i = conf rk i ∧
      put_boundaries_conditions bcGeo conf (fun _ => 1) false true rk 0 0 ≠ conf rk 0 0 := by
  refine ⟨by decide, by decide, ?_⟩
  intro conf hconf i hi hi2 rk
  have hb : bcSites bcGeo false true = bcGeo.locVol + bcGeo.edgeVol := rfl
  have h1 : bcGeo.edgeVol ≤ bcGeo.bordVol := by decide
  have h0 : 0 < bcGeo.locVol := by decide
  constructor
  · unfold put_boundaries_conditions
    rw [if_neg (by omega)]
  · unfold put_boundaries_conditions
    rw [if_pos (by omega)]
    simp only [hconf]
    intro h
    have h2 : bcPhase bcGeo (fun _ => 1) 0 = 1 := by
      have := congrFun (congrFun h 0) 0
      simpa using this
    unfold bcPhase cis at h2
    have h3 := congrArg Complex.im h2
    simp only [Complex.one_im] at h3
    have : (bcGeo.L 0 : ℝ) = 4 := by simp [bcGeo]
    rw [this, one_mul, Real.sin_pi_div_four] at h3
    have : (0 : ℝ) < √2 / 2 := by positivity
    linarith

/-! ### Energy -/

theorem neg_trace_sq (A : M3) (h : Aᴴ = -A) : -(A * A).trace.re = ∑ i, ∑ j, Complex.normSq (A i j) := by
  have e : -(A * A).trace.re = (A * Aᴴ).trace.re := by rw [h, Matrix.mul_neg, trace_neg, Complex.neg_re]
  rw [e, Matrix.trace, Complex.re_sum]
  refine Finset.sum_congr rfl fun i _ => ?_
  rw [Matrix.diag_apply, Matrix.mul_apply, Complex.re_sum]
  refine Finset.sum_congr rfl fun j _ => ?_
  rw [conjTranspose_apply, Complex.star_def, Complex.mul_conj, Complex.ofReal_re]

section
variable {g : Geo} (ok : g.Ok)
include ok

theorem pointEnergy_eq (ji : Nat) (jq : Quad) (l0 : As2t) (U : Nat → Nat → Quad) {rk : Nat} (hrk : rk < g.nranks) {X : Nat} (hX : X < g.locVol)
    {x : Coords} (hx : glbCoordOfLoclx g (coordOfLx rk g.R) X = some x) :
    pointEnergy g (four_leaves_point (upT g (coordOfLx rk g.R) ji) (dwT g (coordOfLx rk g.R) ji) (mem g jq U (coordOfLx rk g.R)) X l0) =
      energyDensity g (glob g U) x / g.glbVol := by
  have hxb : x ∈ box g.L := mem_box.2 (glbCoord_lt ok _ (by unfold allVol; omega) hx)
  have hr := isRank_coord ok hrk
  have key := fun m n hne => leavesPlane_eq ok ji jq U hr hX hx hxb (mu := m) (nu := n) hne
  unfold pointEnergy energyDensity
  simp only [four_leaves_fill]
  rw [key 0 1 (by decide), key 0 2 (by decide), key 0 3 (by decide), key 1 2 (by decide), key 1 3 (by decide), key 2 3 (by decide)]
  rw [planes_eq, show List.finRange 6 = [0, 1, 2, 3, 4, 5] by decide]
  congr 1
  have e8 : ((1 / 8 : ℝ) : ℂ) = (1 / 8 : ℂ) := by push_cast; rfl
  simp only [List.foldl_cons, List.foldl_nil, List.map_cons, List.map_nil, List.sum_cons, List.sum_nil, e8]
  have hF : ∀ m n, ((1 / 8 : ℂ) • (leavesSpec g (glob g U) x m n - (leavesSpec g (glob g U) x m n)ᴴ)) = Fst g (glob g U) x m n := fun _ _ => rfl
  have hs := fun m n => neg_trace_sq (Fst g (glob g U) x m n) (Fst_antiherm (glob g U) x m n)
  simp only [← hs]
  show 0 - (Fst g (glob g U) x 0 1 * Fst g (glob g U) x 0 1).trace.re - (Fst g (glob g U) x 0 2 * Fst g (glob g U) x 0 2).trace.re - (Fst g (glob g U) x 0 3 * Fst g (glob g U) x 0 3).trace.re - (Fst g (glob g U) x 1 2 * Fst g (glob g U) x 1 2).trace.re - (Fst g (glob g U) x 1 3 * Fst g (glob g U) x 1 3).trace.re - (Fst g (glob g U) x 2 3 * Fst g (glob g U) x 2 3).trace.re = _
  ring

/-- C47: the average gauge energy is the average over the global lattice of the squared norm of the clover-shaped field strength, for
any grid of ranks and order of the reduction. -/
theorem C47_energy (ji : Nat) (jq : Quad) (l0 : As2t) (sched : Nat → Nat → List Nat) (hl : ∀ rk, Reduce.Legal (sched rk)) (U : Nat → Nat → Quad) :
    average_gauge_energy g ji jq l0 sched U = (∑ x ∈ box g.L, energyDensity g (glob g U) x) / g.glbVol := by
  unfold average_gauge_energy
  rw [Finset.sum_div]
  exact reduce_sites ok sched hl (fun rk ivol => pointEnergy g (four_leaves_point (upT g (coordOfLx rk g.R) ji) (dwT g (coordOfLx rk g.R) ji)
    (mem g jq U (coordOfLx rk g.R)) ivol l0)) (fun x => energyDensity g (glob g U) x / g.glbVol)
    fun rk hrk i hi x hx => pointEnergy_eq ok ji jq l0 U hrk hi hx

omit ok in
theorem energyDensity_nonneg (U : Coords → Quad) (x : Coords) : 0 ≤ energyDensity g U x := by
  unfold energyDensity
  apply List.sum_nonneg
  intro y hy
  obtain ⟨mn, -, rfl⟩ := List.mem_map.1 hy
  exact Finset.sum_nonneg fun i _ => Finset.sum_nonneg fun j _ => Complex.normSq_nonneg _

/-- C47: the energy is never negative, and it vanishes exactly when the field strength vanishes everywhere. -/
theorem C47_energy_nonneg (ji : Nat) (jq : Quad) (l0 : As2t) (sched : Nat → Nat → List Nat) (hl : ∀ rk, Reduce.Legal (sched rk)) (U : Nat → Nat → Quad) :
    0 ≤ average_gauge_energy g ji jq l0 sched U ∧
    (average_gauge_energy g ji jq l0 sched U = 0 ↔ ∀ x ∈ box g.L, ∀ mu nu, Fst g (glob g U) x mu nu = 0) := by
  rw [C47_energy ok ji jq l0 sched hl]
  have hV : (0 : ℝ) < g.glbVol := by
    have := L_two ok
    have h : 0 < g.glbVol := by
      unfold Geo.glbVol volOfLx dirs
      simp only [List.foldl]
      have a := this 0; have b := this 1; have c := this 2; have d := this 3
      positivity
    exact_mod_cast h
  refine ⟨div_nonneg (Finset.sum_nonneg fun x _ => energyDensity_nonneg _ x) hV.le, ?_⟩
  rw [div_eq_zero_iff, or_iff_left hV.ne', Finset.sum_eq_zero_iff_of_nonneg fun x _ => energyDensity_nonneg _ x]
  refine forall₂_congr fun x hx => ?_
  constructor
  · intro h
    have hlt : ∀ m n, (m, n) ∈ planes → Fst g (glob g U) x m n = 0 := by
      intro m n hmn
      unfold energyDensity at h
      have := List.all_zero_of_le_zero_le_of_sum_eq_zero ?_ h (List.mem_map.2 ⟨(m, n), hmn, rfl⟩)
      · have hz : ∀ (A : M3), (∑ i, ∑ j, Complex.normSq (A i j)) = 0 → A = 0 := by
          intro A hA
          have h1 := (Finset.sum_eq_zero_iff_of_nonneg (s := Finset.univ) (f := fun i => ∑ j, Complex.normSq (A i j))
            fun i _ => Finset.sum_nonneg fun j _ => Complex.normSq_nonneg _).1 hA
          ext i j
          have h2 := (Finset.sum_eq_zero_iff_of_nonneg (s := Finset.univ) (f := fun j => Complex.normSq (A i j))
            fun j _ => Complex.normSq_nonneg _).1 (h1 i (Finset.mem_univ _))
          exact Complex.normSq_eq_zero.1 (h2 j (Finset.mem_univ _))
        exact hz _ this
      · intro y hy
        obtain ⟨mn, -, rfl⟩ := List.mem_map.1 hy
        exact Finset.sum_nonneg fun i _ => Finset.sum_nonneg fun j _ => Complex.normSq_nonneg _
    intro mu nu
    rcases lt_trichotomy mu nu with hc | hc | hc
    · exact hlt mu nu (by revert hc; revert mu nu; decide)
    · subst hc; exact Fst_self ok _ hx mu
    · rw [Fst_swap ok _ hx nu mu, hlt nu mu (by revert hc; revert mu nu; decide), neg_zero]
  · intro h
    unfold energyDensity
    simp [h, planes_eq]

theorem energy_transformed (G : Coords → M3) (hG : AllUnitary g G) (U V : Coords → Quad) (hV : ∀ x ∈ box g.L, V x = transformed g G U x) {x : Coords}
    (hx : x ∈ box g.L) : energyDensity g V x = energyDensity g U x := by
  unfold energyDensity
  congr 1
  refine List.map_congr_left fun mn _ => ?_
  rw [← neg_trace_sq _ (Fst_antiherm V x _ _), ← neg_trace_sq _ (Fst_antiherm U x _ _), Fst_congr ok hV hx, Fst_transformed ok G hG U hx,
    trace_conj _ _ _ (hG x hx)]

/-- C47: the energy is gauge invariant. -/
theorem C47_energy_invariant (ji ji' : Nat) (jq : Quad) (jg : M3) (l0 : As2t) (sched sched' : Nat → Nat → List Nat) (hl : ∀ rk, Reduce.Legal (sched rk))
    (hl' : ∀ rk, Reduce.Legal (sched' rk)) (U : Nat → Nat → Quad) (G : Nat → Nat → M3)
    (hG : ∀ rk, rk < g.nranks → ∀ i, i < g.locVol → (G rk i)ᴴ * G rk i = 1) :
    average_gauge_energy g ji jq l0 sched (gauge_transform_conf g ji' jg G U) = average_gauge_energy g ji jq l0 sched' U := by
  have hG' : AllUnitary g (glob g G) := by
    intro x hx
    obtain ⟨h1, h2, -⟩ := C02_rank_and_loclx g ok x (mem_box.1 hx)
    exact hG _ h1 _ h2
  rw [C47_energy ok ji jq l0 sched hl, C47_energy ok ji jq l0 sched' hl']
  have e : ∑ x ∈ box g.L, energyDensity g (glob g (gauge_transform_conf g ji' jg G U)) x = ∑ x ∈ box g.L, energyDensity g (glob g U) x :=
    Finset.sum_congr rfl fun x hx => energy_transformed ok _ hG' _ _ (fun x hx => C32_gauge_transform ok ji' jg G U x hx) hx
  rw [e]

/-- C47: the energy does not depend on the boundary conditions. -/
theorem C47_energy_boundaries (ji : Nat) (jq : Quad) (l0 : As2t) (sched sched' : Nat → Nat → List Nat) (hl : ∀ rk, Reduce.Legal (sched rk))
    (hl' : ∀ rk, Reduce.Legal (sched' rk)) (U : Nat → Nat → Quad) (th : Theta) (pb pe : Bool) :
    average_gauge_energy g ji jq l0 sched (put_boundaries_conditions g U th pb pe) = average_gauge_energy g ji jq l0 sched' U := by
  rw [C47_energy ok ji jq l0 sched hl, C47_energy ok ji jq l0 sched' hl']
  have e : ∑ x ∈ box g.L, energyDensity g (glob g (put_boundaries_conditions g U th pb pe)) x = ∑ x ∈ box g.L, energyDensity g (glob g U) x := ?_
  · rw [e]
  refine Finset.sum_congr rfl fun x hx => ?_
  unfold energyDensity
  refine congrArg List.sum ?_
  refine List.map_congr_left fun mn _ => ?_
  have hz : leavesSpec g (glob g (put_boundaries_conditions g U th pb pe)) x mn.1 mn.2 = leavesSpec g (glob g U) x mn.1 mn.2 := by
    have hp : ∀ l : List Move, (∀ mu, steps l mu = 0) → pathProd g (glob g (put_boundaries_conditions g U th pb pe)) x l = pathProd g (glob g U) x l := by
      intro l h
      have := C47_paths ok U th pb pe l x hx
      simp only [h, Int.cast_zero, mul_zero, zero_div, Finset.sum_const_zero, cis_zero, one_smul] at this
      exact this
    unfold leavesSpec
    rw [hp _ ?_, hp _ ?_, hp _ ?_, hp _ ?_] <;>
    · intro mu
      unfold steps
      simp only [List.map_cons, List.map_nil, List.sum_cons, List.sum_nil, if_true, Bool.false_eq_true, if_false]
      split_ifs <;> rfl
  unfold Fst
  rw [hz]

/-- C47: the cold configuration has unit links on all the lattice. -/
theorem C47_cold (eo : EoOk g) (x : Coords) (hx : x ∈ box g.L) (mu : Dir) : globEo g generate_cold_eo_conf x mu = 1 := rfl

end

/-- the hypotheses of the theorems are met: any configuration on the split lattice -/
example (conf : Nat → Nat → Quad) : bcGeo.Ok ∧ (adaptAll bcGeo (conf, fun _ => 0) [(fun _ => 1, true, true), (![1, 0, 0, 0], false, false)]).2 = ![1, 0, 0, 0] := by
  refine ⟨by decide, ?_⟩
  rw [(C47_history (by decide) _ conf (fun _ => 0)).1]
  rfl

end

end Nissa.GConf
