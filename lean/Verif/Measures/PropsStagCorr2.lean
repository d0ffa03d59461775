import Verif.Measures.PropsStagCorr

/-! # C62: traces, derivatives in the chemical potential, inverse -/

set_option linter.all false

namespace Nissa.Stag
open Nissa.Lx Nissa.Sten Nissa.Su3f Nissa.Gauge Nissa.StD Nissa.Back Nissa.GForce Matrix

noncomputable section

section
variable {g : Geo} (ok : g.Ok) (eo : EoOk g)
include ok eo

omit ok eo in
theorem eoSites_nodup : (eoSites g).Nodup := List.nodup_range.product List.nodup_range

/-- the local site of an even/odd site -/
theorem eo_key (ji : Nat) (r : Coords) {s : Nat × Nat} (hs : s ∈ eoSites g) :
    ∃ l, loclxOfLoceo g r s.1 s.2 = some l ∧ l < g.locVol ∧ loclxParity g r l = some s.1 ∧ loceoOfLoclx g r l = some s.2 := by
  unfold eoSites at hs
  replace hs := List.pair_mem_product.1 (show (s.1, s.2) ∈ List.range 2 ×ˢ List.range (g.locVol / 2) from hs)
  rw [List.mem_range, List.mem_range] at hs
  obtain ⟨l, h1, h2, h3, h4, h5⟩ := C07_lx_of_eo g ok eo r s.1 s.2 hs.1 (by have := hs.2; omega)
  exact ⟨l, h1, h5 hs.2, h3, h4⟩

theorem eo_key_inj (ji : Nat) (r : Coords) : ∀ s ∈ eoSites g, ∀ t ∈ eoSites g, (loclxOfLoceo g r s.1 s.2).getD ji = (loclxOfLoceo g r t.1 t.2).getD ji → s = t := by
  intro s hs t ht h
  obtain ⟨l, h1, h2, h3, h4⟩ := eo_key ok eo ji r hs
  obtain ⟨l', k1, k2, k3, k4⟩ := eo_key ok eo ji r ht
  rw [h1, k1, Option.getD_some, Option.getD_some] at h
  subst h
  rw [h3] at k3; rw [h4] at k4
  exact Prod.ext (Option.some.inj k3) (Option.some.inj k4)

/-- the site of `c` on its rank -/
theorem site_data {c : Coords} (hc : c ∈ box g.L) : ∃ rk e l, rk < g.nranks ∧ l < g.locVol ∧ (par c, e) ∈ eoSites g ∧ loclxOfLoceo g (coordOfLx rk g.R) (par c) e = some l ∧
    getLoclxAndRankOfCoords g c = (rk, l) ∧ ∀ (F : EoCol), globEo g F c = F rk (par c) e := by
  obtain ⟨rk, e, l, h1, h2, hr, hl, hx, hF, -⟩ := eoSiteOf ok eo hc
  have hm : (par c, e) ∈ eoSites g := by
    exact List.pair_mem_product.2 ⟨List.mem_range.2 (par_lt ok eo c), List.mem_range.2 h2⟩
  obtain ⟨l', k1, k2, -⟩ := eo_key ok eo 0 (coordOfLx rk g.R) hm
  simp only at k1
  rw [hl] at k1
  cases k1
  exact ⟨rk, e, l, h1, k2, hm, hl, rank_site ok h1 k2 hx, fun F => hF F⟩

theorem local_trace_eq (ji : Nat) (A B : EoCol) {c : Coords} (hc : c ∈ box g.L) {rk l : Nat} (h : getLoclxAndRankOfCoords g c = (rk, l)) :
    local_trace g ji A B rk l = star (globEo g A c) ⬝ᵥ globEo g B c := by
  obtain ⟨rk', e, l', -, -, hm, hl, hs, hF⟩ := site_data ok eo hc
  rw [h] at hs
  cases hs
  have := fold_upd (fun s : Nat × Nat => (loclxOfLoceo g (coordOfLx rk g.R) s.1 s.2).getD ji) (fun (v : ℂ) s => v + star (A rk s.1 s.2) ⬝ᵥ B rk s.1 s.2) (eoSites g)
    eoSites_nodup (eo_key_inj ok eo ji _) (fun _ => 0) (par c, e) hm
  simp only [hl, Option.getD_some] at this
  unfold local_trace
  rw [this, hF, hF, zero_add]

/-- C62: the trace is the scalar product on the lattice, on any grid of ranks and for any order of the parallel loops.  What `out` contained is lost. -/
theorem C62_trace (ji : Nat) (sched : Nat → Nat → List Nat) (hl : ∀ rk, Reduce.Legal (sched rk)) (out : ℂ) (A B : EoCol) :
    summ_the_trace g ji sched out A B = dot (box g.L) (globEo g A) (globEo g B) := by
  unfold summ_the_trace dot
  exact reduce_sites ok sched hl _ (fun c => star (globEo g A c) ⬝ᵥ globEo g B c) fun rk hrk i hi x hx =>
    local_trace_eq ok eo ji A B (coord_box ok hrk hi hx) (rank_site ok hrk hi hx)

/-- C62 is violated: the traces of the hits are not summed: what is printed, divided by the number of hits, is the trace of the last one. -/
theorem C62_violated_trace_not_accumulated (ji : Nat) (sched : Nat → Nat → List Nat) (hl : ∀ rk, Reduce.Legal (sched rk)) (hits : List (EoCol × EoCol)) (last : EoCol × EoCol) :
    (hits ++ [last]).foldl (fun out h => summ_the_trace g ji sched out h.1 h.2) 0 = dot (box g.L) (globEo g last.1) (globEo g last.2) := by
  rw [List.foldl_append, List.foldl_cons, List.foldl_nil]
  exact C62_trace ok eo ji sched hl _ _ _

omit ok eo in
theorem itransp_time (c : Coords) : itransp g 0 c = lxOfCoord c g.loc := by
  rw [C01_order]; rfl

/-- C62: the trace at fixed time is added to the output -/
theorem C62_time_trace (ji : Nat) (jc : Coords) (sched : Nat → Nat → List Nat) (hl : ∀ rk, Reduce.Legal (sched rk)) (out : Nat → ℝ) (A B : EoCol) :
    ∃ out', summ_the_time_trace g ji jc sched out A B = some out' ∧ ∀ t < g.L 0,
      out' t = out t + (dot ((box g.L).filter fun c => c 0 = t) (globEo g A) (globEo g B)).re := by
  obtain ⟨res, h1, h2⟩ := C62_slices ok sched hl jc 0 (local_trace g ji A B) (fun c => star (globEo g A c) ⬝ᵥ globEo g B c) (by
    intro c hc
    rw [itransp_time]
    have hs : lxOfCoord (fun mu => c mu % g.loc mu) g.loc = (getLoclxAndRankOfCoords g c).2 := by
      simp only [getLoclxAndRankOfCoords]
      congr 1
      funext mu
      have := Nat.div_add_mod' (c mu) (g.loc mu)
      omega
    rw [hs]
    exact local_trace_eq ok eo ji A B hc rfl)
  refine ⟨_, by unfold summ_the_time_trace; rw [h1]; rfl, fun t ht => ?_⟩
  simp only [ht, if_true, h2 t ht]
  rfl

/-- C62: the time traces of the hits are summed -/
theorem C62_time_trace_hits (ji : Nat) (jc : Coords) (sched : Nat → Nat → List Nat) (hl : ∀ rk, Reduce.Legal (sched rk)) (hits : List (EoCol × EoCol)) :
    ∀ out : Nat → ℝ, ∃ out', hits.foldlM (fun out h => summ_the_time_trace g ji jc sched out h.1 h.2) out = some out' ∧ ∀ t < g.L 0,
      out' t = out t + (hits.map fun h => (dot ((box g.L).filter fun c => c 0 = t) (globEo g h.1) (globEo g h.2)).re).sum := by
  induction hits with
  | nil => intro out; exact ⟨out, rfl, fun t _ => by simp⟩
  | cons h hits ih =>
    intro out
    obtain ⟨o1, h1, h2⟩ := C62_time_trace ok eo ji jc sched hl out h.1 h.2
    obtain ⟨o2, k1, k2⟩ := ih o1
    refine ⟨o2, by rw [List.foldlM_cons, h1]; exact k1, fun t ht => ?_⟩
    rw [k2 t ht, h2 t ht, List.map_cons, List.sum_cons, add_assoc]

/-- C62 is violated: the array of complex numbers that the time trace and the meson correlator use is the `std::vector` object itself: all the
elements but the first go beyond its end -/
theorem C62_violated_complex_vector (k : Nat) (hk : 0 < k) : vectorWords ≤ complexWord k 1 := by
  unfold vectorWords complexWord; omega

/-! ### Chemical potential -/

/-- the staggered operator with chemical potential `t` -/
def chemD (g : Geo) (U : Coords → Quad) (m : ℝ) (x : Coords → Col) (c : Coords) (t : ℝ) : Col :=
  (m : ℂ) • x c + (1 / 2 : ℂ) • ∑ mu : Dir, ((Complex.exp (if mu = 0 then (t : ℂ) else 0)) • ((U c mu) *ᵥ x (tshift g c mu 1)) -
    (Complex.exp (if mu = 0 then -(t : ℂ) else 0)) • ((U (tshift g c mu (-1)) mu)ᴴ *ᵥ x (tshift g c mu (-1))))

omit ok eo in
theorem chemD_zero (U : Coords → Quad) (m : ℝ) (x : Coords → Col) (c : Coords) : chemD g U m x c 0 = (m : ℂ) • x c + (1 / 2 : ℂ) • hop g U x c := by
  unfold chemD hop
  simp

omit ok eo in
theorem deriv_exps (A B C : ℂ) (n : Nat) : iteratedDeriv n (fun t : ℝ => C + (Complex.exp t * A - Complex.exp (-t) * B)) =
    fun t : ℝ => (if n = 0 then C else 0) + (Complex.exp t * A - (-1) ^ n * (Complex.exp (-t) * B)) := by
  induction n with
  | zero => funext t; simp
  | succ n ih =>
    rw [iteratedDeriv_succ, ih]
    funext t
    have h1 : HasDerivAt (fun t : ℝ => Complex.exp (t : ℂ)) (Complex.exp t) t := (Complex.hasDerivAt_exp (t : ℂ)).comp_ofReal
    have h2 : HasDerivAt (fun t : ℝ => Complex.exp (-(t : ℂ))) (-Complex.exp (-t)) t := by
      have : HasDerivAt (fun z : ℂ => Complex.exp (-z)) (Complex.exp (-(t : ℂ)) * (-1)) (t : ℂ) := (hasDerivAt_neg (t : ℂ)).cexp
      have h := this.comp_ofReal
      rwa [mul_neg_one] at h
    have h3 := ((h1.mul_const A).sub ((h2.mul_const B).const_mul ((-1) ^ n))).const_add (if n = 0 then C else 0)
    refine h3.deriv.trans ?_
    simp only [Nat.succ_ne_zero, if_false, pow_succ]
    ring

/-- C62: `mult_dMdmu` of order `n` is the derivative of order `n` of the staggered operator in the chemical potential, at zero; order zero crashes. -/
theorem C62_dMdmu (ji : Nat) (jq : Quad) (jv : Col) (jc : Coords) (junk : Dir → Int) (conf : EoConf) (u1b : EoU1) (n : Nat) (inp : EoCol) :
    (n = 0 → mult_dMdmu g ji jq jv jc junk conf u1b n inp = none) ∧
    (0 < n → ∃ out, mult_dMdmu g ji jq jv jc junk conf u1b n inp = some out ∧ ∀ c ∈ box g.L, ∀ (a : Fin 3) (m : ℝ),
      globEo g out c a = iteratedDeriv n (fun t => chemD g (stagLinks g conf u1b) m (globEo g inp) c t a) 0) := by
  constructor
  · intro h; unfold mult_dMdmu; rw [if_pos h]
  · intro hn
    unfold mult_dMdmu
    rw [if_neg (by omega)]
    refine ⟨_, rfl, fun c hc a m => ?_⟩
    obtain ⟨rk, e, l, h1, h2, hr, hl, hx, hF, -⟩ := eoSiteOf ok eo hc
    have hp := par_lt ok eo c
    rw [hF]
    beta_reduce
    rw [eoMem_here ok eo jq _ hr hp h2 hl hx, eoMem_up ok eo jv ji inp hr hp h2 hl hx 0, eoMem_dw ok eo jv ji inp hr hp h2 hl hx 0,
      eoMem_dw ok eo jq ji _ hr hp h2 hl hx 0]
    have hU : ∀ d ∈ box g.L, globEo g (add_or_rem_backfield_eo g ji jc junk conf false u1b false) d 0 = stagLinks g conf u1b d 0 := by
      intro d hd
      rw [C46_insert_eo ok eo ji jc junk conf false false u1b d hd 0]
      simp [stagLinks]
    rw [hU c hc, hU _ (tshift_mem_box ok hc 0 (-1))]
    set U := stagLinks g conf u1b
    set x := globEo g inp
    set A := ((U c 0) *ᵥ x (tshift g c 0 1)) with hA
    set B := ((U (tshift g c 0 (-1)) 0)ᴴ *ᵥ x (tshift g c 0 (-1))) with hB
    have hf : (fun t : ℝ => chemD g U m x c t a) = fun t : ℝ => ((m : ℂ) * x c a + (1 / 2 : ℂ) * ∑ i : Fin 3, ((U c i.succ *ᵥ x (tshift g c i.succ 1)) a - ((U (tshift g c i.succ (-1)) i.succ)ᴴ *ᵥ x (tshift g c i.succ (-1))) a)) +
        (Complex.exp t * ((1 / 2 : ℂ) * A a) - Complex.exp (-t) * ((1 / 2 : ℂ) * B a)) := by
      funext t
      unfold chemD
      rw [Fin.sum_univ_succ]
      simp only [Fin.succ_ne_zero, if_false, Complex.exp_zero, one_smul, if_true, Pi.add_apply, Pi.smul_apply, Finset.sum_apply, Pi.sub_apply, smul_eq_mul, ← hA, ← hB]
      ring
    rw [hf, deriv_exps, if_neg (show ¬ n = 0 by omega)]
    simp only [if_neg (show ¬ n = 0 by omega), Complex.ofReal_zero, Complex.exp_zero, neg_zero, one_mul, zero_add]
    by_cases h : n % 2 = 0
    · rw [if_pos h, (Nat.even_iff.2 h).neg_one_pow]
      simp only [Pi.smul_apply, Pi.sub_apply, Complex.real_smul]
      push_cast
      ring
    · rw [if_neg h, (Nat.odd_iff.2 (by omega)).neg_one_pow]
      simp only [Pi.smul_apply, Pi.add_apply, Complex.real_smul]
      push_cast
      ring

/-- C62: if `mult_Minv` returns, its result solves the staggered Dirac equation with the background field: exactly on the odd sites, and with the
asked residue on the others -/
theorem C62_Minv (ji : Nat) (jq : Quad) (jv : Col) (jc : Coords) (junk : Dir → Int) (conf : EoConf) (u1b : EoU1) (m : ℝ) (hm : m ≠ 0) (residue : ℝ) (source sol : EoCol)
    (h : mult_Minv ok eo ji jq jv jc junk conf u1b m residue source = .ok sol) :
    let D := fun (sign : ℝ) (x : Coords → Col) c => (m : ℂ) • x c + (sign / 2 : ℂ) • hop g (stagLinks g conf u1b) x c
    let R := fun c => D 1 (globEo g sol) c - globEo g source c
    (∀ c ∈ boxP g 1, R c = 0) ∧
    m ^ 2 * (StD.dot (box g.L) R R).re < residue * (StD.dot (boxP g 0) (D (-1) (globEo g source)) (D (-1) (globEo g source))).re := by
  have hU : ∀ d ∈ box g.L, globEo g (add_or_rem_backfield_eo g ji jc junk conf false u1b false) d = stagLinks g conf u1b d := by
    intro d hd
    funext mu
    rw [C46_insert_eo ok eo ji jc junk conf false false u1b d hd mu]
    simp [stagLinks]
  have hh : ∀ (x : Coords → Col), ∀ c ∈ box g.L, hop g (globEo g (add_or_rem_backfield_eo g ji jc junk conf false u1b false)) x c = hop g (stagLinks g conf u1b) x c := by
    intro x c hc
    unfold hop
    refine Finset.sum_congr rfl fun mu _ => ?_
    rw [hU c hc, hU _ (tshift_mem_box ok hc mu (-1))]
  have hD : ∀ (sign : ℝ) (x : Coords → Col), ∀ c ∈ box g.L, (m : ℂ) • x c + (sign / 2 : ℂ) • hop g (globEo g (add_or_rem_backfield_eo g ji jc junk conf false u1b false)) x c =
      (m : ℂ) • x c + (sign / 2 : ℂ) • hop g (stagLinks g conf u1b) x c := fun s x c hc => by rw [hh x c hc]
  generalize hV : globEo g (add_or_rem_backfield_eo g ji jc junk conf false u1b false) = V at hD
  generalize stagLinks g conf u1b = U at hD ⊢
  have key : (∀ c ∈ boxP g 1, (fun c => ((m : ℂ) • globEo g sol c + ((1 : ℝ) / 2 : ℂ) • hop g V (globEo g sol) c) - globEo g source c) c = 0) ∧
      m ^ 2 * (StD.dot (box g.L) (fun c => ((m : ℂ) • globEo g sol c + ((1 : ℝ) / 2 : ℂ) • hop g V (globEo g sol) c) - globEo g source c)
        (fun c => ((m : ℂ) • globEo g sol c + ((1 : ℝ) / 2 : ℂ) • hop g V (globEo g sol) c) - globEo g source c)).re <
      residue * (StD.dot (boxP g 0) (fun c => (m : ℂ) • globEo g source c + (((-1 : ℝ) : ℂ) / 2 : ℂ) • hop g V (globEo g source) c)
        (fun c => (m : ℂ) • globEo g source c + (((-1 : ℝ) : ℂ) / 2 : ℂ) • hop g V (globEo g source) c)).re := by
    rw [← hV]
    unfold mult_Minv at h
    exact Inv.C42_inv_stD_converged ok eo ji jq jv none _ m hm 100000 (by norm_num) residue source sol h
  obtain ⟨k1, k2⟩ := key
  intro D R
  have e1 : ∀ c ∈ box g.L, (fun c => ((m : ℂ) • globEo g sol c + ((1 : ℝ) / 2 : ℂ) • hop g V (globEo g sol) c) - globEo g source c) c = R c := fun c hc => by
    beta_reduce; rw [hD 1 _ c hc]
  have e2 : ∀ c ∈ boxP g 0, (fun c => (m : ℂ) • globEo g source c + (((-1 : ℝ) : ℂ) / 2 : ℂ) • hop g V (globEo g source) c) c = D (-1) (globEo g source) c := fun c hc => by
    beta_reduce; rw [hD (-1) _ c (mem_boxP.1 hc).1]
  refine ⟨fun c hc => ?_, ?_⟩
  · rw [← e1 c (mem_boxP.1 hc).1]; exact k1 c hc
  · rw [dot_congr e1 e1, dot_congr e2 e2] at k2
    exact k2

end

end

end Nissa.Stag
