import Verif.Dirac.CgFields

/-! # C42: the staggered and the (unpreconditioned) twisted clover inverters

Models `/repo/src/inverters/staggered/cg_invert_stD2ee_m2.hpp`, `cg_invert_evn_stD.hpp`, `cg_invert_stD.hpp`,
`/repo/src/inverters/twisted_clover/cg_64_invert_tmclovQ2_portable.hpp`, `cg_invert_tmclovQ.hpp`.  Exact arithmetic. -/

set_option linter.all false

namespace Nissa.Inv
open Nissa.Lx Nissa.Sten Nissa.Su3f Nissa.Gauge Nissa.Gamma Nissa.StD Nissa.Wilson Nissa.Cg Nissa.CgF Matrix Complex

noncomputable section

/-- the operator passed to the solver by `inv_stD2ee_m2_cg`; the output and the input are different fields of the solver, so that the abort of
`apply_stD2ee_m2` is not met.  `/repo/src/inverters/staggered/cg_invert_stD2ee_m2.hpp:23-33` -/
def stD2ee (g : Geo) (ji : Nat) (jq : Quad) (jv : Col) (conf : Nat → Nat → Nat → Quad) (m2 : ℝ) (inp : Nat → Nat → Col) : Nat → Nat → Col :=
  (apply_stD2ee_m2 g ji jq jv false conf m2 inp).getD 0

/-- `inv_stD2ee_m2_cg`.  `/repo/src/inverters/staggered/cg_invert_stD2ee_m2.hpp:14-41` -/
def inv_stD2ee_m2_cg {g : Geo} (ok : g.Ok) (eo : EoOk g) (ji : Nat) (jq : Quad) (jv : Col) (guess : Option (Nat → Nat → Col)) (conf : Nat → Nat → Nat → Quad) (m2 : ℝ)
    (niter : Nat) (residue : ℝ) (source : Nat → Nat → Col) : Except Crash (Nat → Nat → Col) :=
  cgField (colView ok eo 0) guess (stD2ee g ji jq jv conf m2) niter residue source

/-- `inv_evn_stD_cg`.  `/repo/src/inverters/staggered/cg_invert_evn_stD.hpp:15-31` -/
def inv_evn_stD_cg {g : Geo} (ok : g.Ok) (eo : EoOk g) (ji : Nat) (jq : Quad) (jv : Col) (guess : Option (Nat → Nat → Col)) (conf : Nat → Nat → Nat → Quad) (m : ℝ)
    (niter : Nat) (residue : ℝ) (source : Nat → Nat → Nat → Col) : Except Crash (Nat → Nat → Col) :=
  let temp := evn_apply_stD g ji jq jv conf m source (-1)
  inv_stD2ee_m2_cg ok eo ji jq jv guess conf (m * m) niter residue temp

/-- `inv_stD_cg`, without the final check which only prints.  `/repo/src/inverters/staggered/cg_invert_stD.hpp:12-75` -/
def inv_stD_cg {g : Geo} (ok : g.Ok) (eo : EoOk g) (ji : Nat) (jq : Quad) (jv : Col) (guess : Option (Nat → Nat → Col)) (conf : Nat → Nat → Nat → Quad) (m : ℝ)
    (niter : Nat) (residue : ℝ) (source : Nat → Nat → Nat → Col) : Except Crash (Nat → Nat → Nat → Col) :=
  match inv_evn_stD_cg ok eo ji jq jv guess conf m niter residue source with
  | .error c => .error c
  | .ok evn =>
    let odd := apply_st2Doe g ji jq jv conf evn
    let odd := fun rk io (ic : Fin 3) => (source rk 1 io ic - (0.5 : ℝ) * odd rk io ic) / (m : ℂ)
    .ok fun rk p e => if p = 0 then evn rk e else odd rk e

/-- `inv_tmclovQ2_cg` in 64 bit.  `/repo/src/inverters/twisted_clover/cg_64_invert_tmclovQ2_portable.hpp:13-48` -/
def inv_tmclovQ2_cg {g : Geo} (ok : g.Ok) (ji : Nat) (jq : Quad) (jv : SpCol) (guess : Option (Nat → Nat → SpCol)) (conf : Nat → Nat → Quad) (kappa : ℝ)
    (anis : Option ℝ) (Cl : Nat → Nat → Clov) (mu : ℝ) (niter : Nat) (residue : ℝ) (source : Nat → Nat → SpCol) : Except Crash (Nat → Nat → SpCol) :=
  cgField (lxView ok) guess (apply_tmclovQ2 g ji jq jv conf kappa anis Cl mu) niter residue source

/-- `inv_tmclovQ_cg`.  `/repo/src/inverters/twisted_clover/cg_invert_tmclovQ.hpp:8-26` -/
def inv_tmclovQ_cg {g : Geo} (ok : g.Ok) (ji : Nat) (jq : Quad) (jv : SpCol) (guess : Option (Nat → Nat → SpCol)) (conf : Nat → Nat → Quad) (kappa : ℝ)
    (anis : Option ℝ) (Cl : Nat → Nat → Clov) (mu : ℝ) (niter : Nat) (residue : ℝ) (source : Nat → Nat → SpCol) : Except Crash (Nat → Nat → SpCol) :=
  match inv_tmclovQ2_cg ok ji jq jv guess conf kappa anis Cl mu niter residue source with
  | .error c => .error c
  | .ok temp => .ok (apply_tmclovQ g ji jq jv conf kappa anis Cl (-mu) temp)

/-! ### Staggered -/

theorem hop_add (g : Geo) (U : Coords → Quad) (x y : Coords → Col) (c : Coords) : hop g U (fun d => x d + y d) c = hop g U x c + hop g U y c := by
  unfold hop
  rw [← Finset.sum_add_distrib]
  refine Finset.sum_congr rfl fun mu _ => ?_
  rw [mulVec_add, mulVec_add]; abel

theorem hop_smul (g : Geo) (U : Coords → Quad) (a : ℂ) (x : Coords → Col) (c : Coords) : hop g U (fun d => a • x d) c = a • hop g U x c := by
  unfold hop
  rw [Finset.smul_sum]
  refine Finset.sum_congr rfl fun mu _ => ?_
  rw [mulVec_smul, mulVec_smul, smul_sub]

section
variable {g : Geo} (ok : g.Ok) (eo : EoOk g)
include ok eo

theorem stD2ee_eq (ji : Nat) (jq : Quad) (jv : Col) (conf : Nat → Nat → Nat → Quad) (m2 : ℝ) (inp : Nat → Nat → Col) {c : Coords} (hc : c ∈ boxP g 0) :
    globH g (stD2ee g ji jq jv conf m2 inp) c = (m2 : ℂ) • globH g inp c - (1 / 4 : ℂ) • hop g (globEo g conf) (hop g (globEo g conf) (globH g inp)) c := by
  obtain ⟨-, out, ho, h⟩ := C39_stD2ee ok eo ji jq jv conf m2 inp
  unfold stD2ee
  rw [ho, Option.getD_some, h c hc]
  ext a
  simp

theorem stD2ee_lin (ji : Nat) (jq : Quad) (jv : Col) (conf : Nat → Nat → Nat → Quad) (m2 : ℝ) : Lin (colView ok eo 0) (stD2ee g ji jq jv conf m2) := by
  refine ⟨fun x y => ?_, fun s x => ?_⟩
  · funext ⟨⟨c, hc⟩, a⟩
    show globH g (stD2ee g ji jq jv conf m2 (x + y)) c a = globH g (stD2ee g ji jq jv conf m2 x) c a + globH g (stD2ee g ji jq jv conf m2 y) c a
    rw [stD2ee_eq ok eo ji jq jv conf m2 _ hc, stD2ee_eq ok eo ji jq jv conf m2 _ hc, stD2ee_eq ok eo ji jq jv conf m2 _ hc]
    have e1 : globH g (x + y) = fun d => globH g x d + globH g y d := rfl
    have e2 : hop g (globEo g conf) (fun d => globH g x d + globH g y d) =
      fun d => hop g (globEo g conf) (globH g x) d + hop g (globEo g conf) (globH g y) d := funext fun d => hop_add g _ _ _ d
    rw [e1, e2, hop_add]
    simp only [Pi.add_apply, Pi.sub_apply, Pi.smul_apply, smul_eq_mul]
    ring
  · funext ⟨⟨c, hc⟩, a⟩
    show globH g (stD2ee g ji jq jv conf m2 (s • x)) c a = s * globH g (stD2ee g ji jq jv conf m2 x) c a
    rw [stD2ee_eq ok eo ji jq jv conf m2 _ hc, stD2ee_eq ok eo ji jq jv conf m2 _ hc]
    have e1 : globH g (s • x) = fun d => s • globH g x d := rfl
    have e2 : hop g (globEo g conf) (fun d => s • globH g x d) =
      fun d => s • hop g (globEo g conf) (globH g x) d := funext fun d => hop_smul g _ _ _ d
    rw [e1, e2, hop_smul]
    simp only [Pi.add_apply, Pi.sub_apply, Pi.smul_apply, smul_eq_mul]
    ring

/-- C42: the even system: if the solver returns, the residue is below the requested one -/
theorem C42_inv_stD2ee_converged (ji : Nat) (jq : Quad) (jv : Col) (guess : Option (Nat → Nat → Col)) (conf : Nat → Nat → Nat → Quad) (m2 : ℝ) (niter : Nat)
    (hn : 0 < niter) (residue : ℝ) (source sol : Nat → Nat → Col) (h : inv_stD2ee_m2_cg ok eo ji jq jv guess conf m2 niter residue source = .ok sol) :
    let R := fun c => globH g source c - ((m2 : ℂ) • globH g sol c - (1 / 4 : ℂ) • hop g (globEo g conf) (hop g (globEo g conf) (globH g sol)) c)
    (StD.dot (boxP g 0) R R).re < residue * (StD.dot (boxP g 0) (globH g source) (globH g source)).re := by
  intro R
  have := cgField_converged _ _ (stD2ee_lin ok eo ji jq jv conf m2) guess niter hn residue source sol h
  rw [col_dot, col_dot] at this
  have e : ∀ c ∈ boxP g 0, globH g (source - stD2ee g ji jq jv conf m2 sol) c = R c := fun c hc => by
    show globH g source c - globH g (stD2ee g ji jq jv conf m2 sol) c = _
    rw [stD2ee_eq ok eo ji jq jv conf m2 sol hc]
  rwa [StD.dot_congr e e] at this

/-- C42: it returns, for positive `m2`, allowing more iterations than the real dimension of the even system -/
theorem C42_inv_stD2ee_returns (ji : Nat) (jq : Quad) (jv : Col) (conf : Nat → Nat → Nat → Quad) (m2 : ℝ) (hm : 0 < m2) (niter : Nat)
    (hn : 6 * (boxP g 0).card < niter) (residue : ℝ) (hr : 0 < residue) (source : Nat → Nat → Col) (hs : ∃ c ∈ boxP g 0, globH g source c ≠ 0) :
    ∃ sol, inv_stD2ee_m2_cg ok eo ji jq jv none conf m2 niter residue source = .ok sol := by
  have st : ∀ u v : Coords → Col, star (StD.dot (boxP g 0) u v) = StD.dot (boxP g 0) v u := by
    intro u v
    unfold StD.dot
    rw [star_sum]
    refine Finset.sum_congr rfl fun c _ => ?_
    simp [dotProduct, star_sum, mul_comm]
  have hf : ∀ x y, StD.dot (boxP g 0) (globH g y) (globH g (stD2ee g ji jq jv conf m2 x)) = m2 * StD.dot (boxP g 0) (globH g y) (globH g x) +
      1 / 4 * StD.dot (boxP g 1) (hop g (globEo g conf) (globH g y)) (hop g (globEo g conf) (globH g x)) := fun x y =>
    C39_stD2ee_form ok eo ji jq jv conf m2 x y _ rfl
  have hsymm : ∀ x y, StD.dot (boxP g 0) (globH g (stD2ee g ji jq jv conf m2 x)) (globH g y) = StD.dot (boxP g 0) (globH g x) (globH g (stD2ee g ji jq jv conf m2 y)) := by
    intro x y
    rw [← st, hf, hf, star_add, star_mul', star_mul', st]
    have st1 : ∀ u v : Coords → Col, star (StD.dot (boxP g 1) u v) = StD.dot (boxP g 1) v u := by
      intro u v
      unfold StD.dot
      rw [star_sum]
      refine Finset.sum_congr rfl fun c _ => ?_
      simp [dotProduct, star_sum, mul_comm]
    rw [st1]
    simp
  refine cgField_terminates _ _ (stD2ee_lin ok eo ji jq jv conf m2) (fun x y => by rw [col_dot, col_dot, hsymm]) (fun x hx => ?_) niter (by
    simp only [Fintype.card_prod, Fintype.card_coe, Fintype.card_fin]; omega) residue hr source ?_
  · rw [col_dot, hsymm]
    have h1 := (C39_stD2ee_positive ok eo ji jq jv conf m2 x _ rfl).2
    have h2 := dot_self_pos _ x hx
    rw [col_dot] at h2
    exact lt_of_lt_of_le (mul_pos hm h2) h1
  · obtain ⟨c, hc, hne⟩ := hs
    intro h0
    refine hne ?_
    funext a
    exact congrFun h0 (⟨c, hc⟩, a)

/-- the residue of the full system -/
theorem stD_residue (ji : Nat) (jq : Quad) (jv : Col) (conf : Nat → Nat → Nat → Quad) (m : ℝ) (hm : m ≠ 0) (source sol : Nat → Nat → Nat → Col) (evn : Nat → Nat → Col)
    (hs : sol = fun rk p e => if p = 0 then evn rk e else
      fun ic => (source rk 1 e ic - (0.5 : ℝ) * apply_st2Doe g ji jq jv conf evn rk e ic) / (m : ℂ)) :
    (∀ c ∈ boxP g 1, globEo g (apply_stD g ji jq jv conf m sol 1) c = globEo g source c) ∧
    ∀ c ∈ boxP g 0, (m : ℂ) • (globEo g (apply_stD g ji jq jv conf m sol 1) c - globEo g source c) =
      - (globH g (evn_apply_stD g ji jq jv conf m source (-1)) c -
        ((m * m : ℝ) • globH g evn c - (1 / 4 : ℝ) • hop g (globEo g conf) (hop g (globEo g conf) (globH g evn)) c)) := by
  have hE : ∀ c ∈ boxP g 0, globEo g sol c = globH g evn c := by
    intro c hc
    obtain ⟨rk, e, l, h1, h2, hr, hl, hx, hF, hG⟩ := eoSiteOf ok eo (mem_boxP.1 hc).1
    rw [hF, hG, (mem_boxP.1 hc).2, hs]; rfl
  have hO : ∀ c ∈ boxP g 1, globEo g sol c = (m⁻¹ : ℝ) • globEo g source c + (-(m⁻¹ / 2) : ℝ) • hop g (globEo g conf) (globEo g sol) c := by
    intro c hc
    have h := C39_st2Doe ok eo ji jq jv conf evn hc
    have h' : hop g (globEo g conf) (globH g evn) c = hop g (globEo g conf) (globEo g sol) c :=
      hop_congr fun mu => ⟨(hE _ (tshift_mem_boxP ok eo hc mu (.inl rfl))).symm, (hE _ (tshift_mem_boxP ok eo hc mu (.inr rfl))).symm⟩
    rw [← h', ← h]
    obtain ⟨rk, e, l, h1, h2, hr, hl, hx, hF, hG⟩ := eoSiteOf ok eo (mem_boxP.1 hc).1
    rw [hF, hF, hG, (mem_boxP.1 hc).2, hs]
    funext a
    simp only [Nat.one_ne_zero, if_false, Pi.add_apply, Pi.smul_apply, Complex.real_smul]
    have : (m : ℂ) ≠ 0 := by exact_mod_cast hm
    push_cast
    field_simp
    norm_num
    ring
  refine ⟨fun c hc => ?_, fun c hc => ?_⟩
  · rw [C39_stD ok eo ji jq jv conf m sol 1 (mem_boxP.1 hc).1, hO c hc]
    funext a
    have : (m : ℂ) ≠ 0 := by exact_mod_cast hm
    simp only [Pi.add_apply, Pi.smul_apply, Complex.real_smul]
    push_cast
    field_simp
    ring
  · have ht : globH g (evn_apply_stD g ji jq jv conf m source (-1)) c = m • globEo g source c + (-1 / 2 : ℝ) • hop g (globEo g conf) (globEo g source) c := by
      have := C39_stD ok eo ji jq jv conf m source (-1) (mem_boxP.1 hc).1
      rw [← this]
      obtain ⟨rk, e, l, h1, h2, hr, hl, hx, hF, hG⟩ := eoSiteOf ok eo (mem_boxP.1 hc).1
      rw [hF, hG, (mem_boxP.1 hc).2]; rfl
    rw [ht, C39_stD ok eo ji jq jv conf m sol 1 (mem_boxP.1 hc).1, hE c hc]
    have h1 : hop g (globEo g conf) (globEo g sol) c = (m⁻¹ : ℂ) • hop g (globEo g conf) (globEo g source) c + (-(m⁻¹ / 2) : ℂ) • hop g (globEo g conf) (hop g (globEo g conf) (globH g evn)) c := by
      have e1 : hop g (globEo g conf) (globEo g sol) c = hop g (globEo g conf) (fun d => (m⁻¹ : ℂ) • globEo g source d + (-(m⁻¹ / 2) : ℂ) • hop g (globEo g conf) (globH g evn) d) c := by
        have go : ∀ y ∈ boxP g 1, globEo g sol y = (m⁻¹ : ℂ) • globEo g source y + (-(m⁻¹ / 2) : ℂ) • hop g (globEo g conf) (globH g evn) y := by
          intro y hy
          rw [hO y hy]
          have : hop g (globEo g conf) (globEo g sol) y = hop g (globEo g conf) (globH g evn) y :=
            hop_congr fun mu => ⟨hE _ (tshift_mem_boxP ok eo hy mu (.inl rfl)), hE _ (tshift_mem_boxP ok eo hy mu (.inr rfl))⟩
          rw [this]
          funext a
          simp only [Pi.add_apply, Pi.smul_apply, Complex.real_smul, smul_eq_mul]
          push_cast; ring
        exact hop_congr fun mu => ⟨go _ (tshift_mem_boxP ok eo hc mu (.inl rfl)), go _ (tshift_mem_boxP ok eo hc mu (.inr rfl))⟩
      rw [e1, hop_add g (globEo g conf) (fun d => (m⁻¹ : ℂ) • globEo g source d), hop_smul, hop_smul]
    rw [h1]
    funext a
    have : (m : ℂ) ≠ 0 := by exact_mod_cast hm
    simp only [Pi.add_apply, Pi.smul_apply, Pi.sub_apply, Pi.neg_apply, Complex.real_smul, smul_eq_mul]
    push_cast
    field_simp
    ring

/-- C42: if the staggered inverter returns, the result solves the full system `D sol = source` exactly on the odd sites, and with residue `R` on the even
ones such that `m^2 |R|^2` is below the requested fraction of the norm of the source of the even system `D^+ source`. -/
theorem C42_inv_stD_converged (ji : Nat) (jq : Quad) (jv : Col) (guess : Option (Nat → Nat → Col)) (conf : Nat → Nat → Nat → Quad) (m : ℝ) (hm : m ≠ 0) (niter : Nat)
    (hn : 0 < niter) (residue : ℝ) (source sol : Nat → Nat → Nat → Col) (h : inv_stD_cg ok eo ji jq jv guess conf m niter residue source = .ok sol) :
    let D := fun (sign : ℝ) (x : Coords → Col) c => (m : ℂ) • x c + (sign / 2 : ℂ) • hop g (globEo g conf) x c
    let R := fun c => D 1 (globEo g sol) c - globEo g source c
    (∀ c ∈ boxP g 1, R c = 0) ∧
    m ^ 2 * (StD.dot (box g.L) R R).re < residue * (StD.dot (boxP g 0) (D (-1) (globEo g source)) (D (-1) (globEo g source))).re := by
  intro D R
  unfold inv_stD_cg inv_evn_stD_cg at h
  simp only at h
  cases hc : inv_stD2ee_m2_cg ok eo ji jq jv guess conf (m * m) niter residue (evn_apply_stD g ji jq jv conf m source (-1)) with
  | error e => rw [hc] at h; cases h
  | ok evn =>
    rw [hc] at h
    simp only at h
    have hs := (Except.ok.inj h).symm
    obtain ⟨h1, h0⟩ := stD_residue ok eo ji jq jv conf m hm source sol evn hs
    have hD : ∀ c ∈ box g.L, ∀ (s : ℝ) (x : Nat → Nat → Nat → Col), globEo g (apply_stD g ji jq jv conf m x s) c = D s (globEo g x) c := by
      intro c hc s x
      rw [C39_stD ok eo ji jq jv conf m x s hc]
      funext a
      simp [D]
    have hR1 : ∀ c ∈ boxP g 1, R c = 0 := fun c hc => by
      show D 1 (globEo g sol) c - _ = 0
      rw [← hD c (mem_boxP.1 hc).1, h1 c hc, sub_self]
    refine ⟨hR1, ?_⟩
    have hconv := C42_inv_stD2ee_converged ok eo ji jq jv guess conf (m * m) niter hn residue _ evn hc
    simp only at hconv
    have e0 : ∀ c ∈ boxP g 0, globH g (evn_apply_stD g ji jq jv conf m source (-1)) c = D (-1) (globEo g source) c := by
      intro c hc
      rw [← hD c (mem_boxP.1 hc).1]
      obtain ⟨rk, e, l, h1, h2, hr, hl, hx, hF, hG⟩ := eoSiteOf ok eo (mem_boxP.1 hc).1
      rw [hF, hG, (mem_boxP.1 hc).2]; rfl
    rw [StD.dot_congr e0 e0] at hconv
    refine lt_of_le_of_lt (le_of_eq ?_) hconv
    rw [StD.dot_parities ok eo]
    have z1 : StD.dot (boxP g 1) R R = 0 := Finset.sum_eq_zero fun c hc => by rw [hR1 c hc]; simp
    have e2 : ∀ c ∈ boxP g 0, globH g (evn_apply_stD g ji jq jv conf m source (-1)) c - (((m * m : ℝ) : ℂ) • globH g evn c -
        (1 / 4 : ℂ) • hop g (globEo g conf) (hop g (globEo g conf) (globH g evn)) c) = ((-m : ℝ) • R) c := by
      intro c hc
      have := h0 c hc
      rw [hD c (mem_boxP.1 hc).1] at this
      rw [Pi.smul_apply, neg_smul]
      show _ = - (m • (D 1 (globEo g sol) c - globEo g source c))
      have e3 : m • (D 1 (globEo g sol) c - globEo g source c) = (m : ℂ) • (D 1 (globEo g sol) c - globEo g source c) := by funext a; simp
      rw [e3, this, neg_neg]
      funext a
      simp
    rw [StD.dot_congr e2 e2, StD.dot_smul, StD.smul_dot, z1, add_zero, ← mul_assoc, ← Complex.ofReal_mul, Complex.re_ofReal_mul]
    ring

/-- C42: and it returns for any nonvanishing mass, unless `D^+ source` vanishes on the even sites, where `cg_invert` aborts -/
theorem C42_inv_stD_returns (ji : Nat) (jq : Quad) (jv : Col) (conf : Nat → Nat → Nat → Quad) (m : ℝ) (hm : m ≠ 0) (niter : Nat)
    (hn : 6 * (boxP g 0).card < niter) (residue : ℝ) (hr : 0 < residue) (source : Nat → Nat → Nat → Col)
    (hs : ∃ c ∈ boxP g 0, (m : ℂ) • globEo g source c - (1 / 2 : ℂ) • hop g (globEo g conf) (globEo g source) c ≠ 0) :
    ∃ sol, inv_stD_cg ok eo ji jq jv none conf m niter residue source = .ok sol := by
  obtain ⟨evn, he⟩ := C42_inv_stD2ee_returns ok eo ji jq jv conf (m * m) (mul_self_pos.2 hm) niter hn residue hr (evn_apply_stD g ji jq jv conf m source (-1)) (by
    obtain ⟨c, hc, hne⟩ := hs
    refine ⟨c, hc, fun h0 => hne ?_⟩
    rw [← h0]
    have := C39_stD ok eo ji jq jv conf m source (-1) (mem_boxP.1 hc).1
    obtain ⟨rk, e, l, h1, h2, hr, hl, hx, hF, hG⟩ := eoSiteOf ok eo (mem_boxP.1 hc).1
    rw [hF] at this
    rw [hG]
    have e3 : apply_stD g ji jq jv conf m source (-1) rk (par c) e = evn_apply_stD g ji jq jv conf m source (-1) rk e := by rw [(mem_boxP.1 hc).2]; rfl
    rw [← e3, this]
    funext a
    simp
    ring)
  unfold inv_stD_cg inv_evn_stD_cg
  simp only
  rw [he]
  exact ⟨_, rfl⟩

end

/-! ### Twisted clover -/

section
variable {g : Geo} (ok : g.Ok)
include ok

theorem Qspec_congr {anis : Option ℝ} {U : Coords → Quad} {k : ℝ} {C : Coords → SpCol → SpCol} {mu : ℝ} {x y : Coords → SpCol} {c : Coords} (hc : c ∈ box g.L)
    (h : ∀ d ∈ box g.L, x d = y d) : Qspec g anis U k C mu x c = Qspec g anis U k C mu y c := by
  unfold Qspec
  rw [h c hc, EoP.wilson_congr (x := x) (y := y) fun mu => ⟨h _ (tshift_mem_box ok hc mu 1), h _ (tshift_mem_box ok hc mu (-1))⟩]

omit ok in
theorem Qspec_lin (anis : Option ℝ) (U : Coords → Quad) (k : ℝ) (B : Coords → Fin 4 → Fin 4 → M3) (mu : ℝ) (a : ℂ) (x y : Coords → SpCol) (c : Coords) :
    Qspec g anis U k (fun c => scMul (B c)) mu (fun d => x d + a • y d) c = Qspec g anis U k (fun c => scMul (B c)) mu x c + a • Qspec g anis U k (fun c => scMul (B c)) mu y c := by
  unfold Qspec
  have e1 := EoP.wilson_add g anis U x (fun d => a • y d) c
  rw [e1, EoP.wilson_smul g anis U a y c]
  have e2 : scMul (B c) (x c + a • y c) = scMul (B c) (x c) + a • scMul (B c) (y c) := by
    unfold scMul
    funext i
    simp only [Pi.add_apply, Pi.smul_apply, mulVec_add, mulVec_smul, Finset.sum_add_distrib, Finset.smul_sum]
  beta_reduce
  rw [e2]
  generalize wilson g anis U x c = w
  generalize wilson g anis U y c = w'
  generalize scMul (B c) (x c) = z
  generalize scMul (B c) (y c) = z'
  have e4 : (k : ℂ) • (x c + a • y c) - (1 / 2 : ℂ) • (w + a • w') + (z + a • z') = ((k : ℂ) • x c - (1 / 2 : ℂ) • w + z) + a • ((k : ℂ) • y c - (1 / 2 : ℂ) • w' + z') := by
    simp only [smul_add, smul_sub, smul_smul, mul_comm a]
    abel
  rw [e4, spinMul_add, spinMul_smul]
  simp only [smul_add, smul_smul, mul_comm a]
  abel

/-- the operators with opposite twisted masses commute -/
theorem Q_commute (ji : Nat) (jq : Quad) (jv : SpCol) (conf : Nat → Nat → Quad) (kappa : ℝ) (anis : Option ℝ) (Cl : Nat → Nat → Clov) (mu : ℝ)
    (x : Nat → Nat → SpCol) {c : Coords} (hc : c ∈ box g.L) :
    glob g (apply_tmclovQ g ji jq jv conf kappa anis Cl mu (apply_tmclovQ g ji jq jv conf kappa anis Cl (-mu) x)) c =
      glob g (apply_tmclovQ2 g ji jq jv conf kappa anis Cl mu x) c := by
  unfold apply_tmclovQ2
  simp only
  have key : ∀ nu : ℝ, glob g (apply_tmclovQ g ji jq jv conf kappa anis Cl nu (apply_tmclovQ g ji jq jv conf kappa anis Cl (-nu) x)) c =
      Qspec g anis (glob g conf) (1 / (2 * kappa)) (fun c => scMul (cloverBlock (glob g Cl c))) 0
        (Qspec g anis (glob g conf) (1 / (2 * kappa)) (fun c => scMul (cloverBlock (glob g Cl c))) 0 (glob g x)) c + ((nu : ℂ) ^ 2) • glob g x c := by
    intro nu
    rw [C40_tmclovQ ok ji jq jv conf kappa anis Cl nu _ hc]
    rw [Qspec_congr ok (x := glob g (apply_tmclovQ g ji jq jv conf kappa anis Cl (-nu) x)) (y := fun d =>
      Qspec g anis (glob g conf) (1 / (2 * kappa)) (fun c => scMul (cloverBlock (glob g Cl c))) 0 (glob g x) d + (((-nu : ℝ) : ℂ) * I) • glob g x d) hc
      fun d hd => by rw [C40_tmclovQ ok ji jq jv conf kappa anis Cl (-nu) x hd, Qspec_mu]]
    rw [Qspec_mu, Qspec_lin]
    generalize Qspec g anis (glob g conf) (1 / (2 * kappa)) (fun c => scMul (cloverBlock (glob g Cl c))) 0 (Qspec g anis (glob g conf) (1 / (2 * kappa)) (fun c => scMul (cloverBlock (glob g Cl c))) 0 (glob g x)) c = w
    generalize Qspec g anis (glob g conf) (1 / (2 * kappa)) (fun c => scMul (cloverBlock (glob g Cl c))) 0 (glob g x) c = z
    funext i a
    simp only [Pi.add_apply, Pi.smul_apply, smul_eq_mul]
    push_cast
    have hI : I * I = -1 := I_mul_I
    linear_combination (-(nu : ℂ) ^ 2 * glob g x c i a) * hI
  rw [key mu]
  have := key (-mu)
  rw [neg_neg] at this
  rw [this]
  push_cast
  ring_nf

theorem Q2_lin (ji : Nat) (jq : Quad) (jv : SpCol) (conf : Nat → Nat → Quad) (kappa : ℝ) (anis : Option ℝ) (Cl : Nat → Nat → Clov) (mu : ℝ) :
    Lin (lxView ok) (apply_tmclovQ2 g ji jq jv conf kappa anis Cl mu) := by
  have lin : ∀ (nu : ℝ) (a : ℂ) (x y : Nat → Nat → SpCol), ∀ c ∈ box g.L, glob g (apply_tmclovQ g ji jq jv conf kappa anis Cl nu (x + a • y)) c =
      glob g (apply_tmclovQ g ji jq jv conf kappa anis Cl nu x) c + a • glob g (apply_tmclovQ g ji jq jv conf kappa anis Cl nu y) c := by
    intro nu a x y c hc
    rw [C40_tmclovQ ok ji jq jv conf kappa anis Cl nu _ hc, C40_tmclovQ ok ji jq jv conf kappa anis Cl nu _ hc, C40_tmclovQ ok ji jq jv conf kappa anis Cl nu _ hc]
    exact Qspec_lin anis _ _ _ nu a (glob g x) (glob g y) c
  have congr : ∀ (nu : ℝ) (x y : Nat → Nat → SpCol), (∀ c ∈ box g.L, glob g x c = glob g y c) → ∀ c ∈ box g.L,
      glob g (apply_tmclovQ g ji jq jv conf kappa anis Cl nu x) c = glob g (apply_tmclovQ g ji jq jv conf kappa anis Cl nu y) c := by
    intro nu x y h c hc
    rw [C40_tmclovQ ok ji jq jv conf kappa anis Cl nu _ hc, C40_tmclovQ ok ji jq jv conf kappa anis Cl nu _ hc, Qspec_congr ok hc h]
  have lin2 : ∀ (a : ℂ) (x y : Nat → Nat → SpCol), ∀ c ∈ box g.L, glob g (apply_tmclovQ2 g ji jq jv conf kappa anis Cl mu (x + a • y)) c =
      glob g (apply_tmclovQ2 g ji jq jv conf kappa anis Cl mu x) c + a • glob g (apply_tmclovQ2 g ji jq jv conf kappa anis Cl mu y) c := by
    intro a x y c hc
    unfold apply_tmclovQ2
    simp only
    rw [congr (-mu) _ (apply_tmclovQ g ji jq jv conf kappa anis Cl mu x + a • apply_tmclovQ g ji jq jv conf kappa anis Cl mu y) (fun d hd => lin mu a x y d hd) c hc, lin _ _ _ _ _ hc]
  refine ⟨fun x y => ?_, fun s x => ?_⟩
  · have h1 : (lxView ok).comp (apply_tmclovQ2 g ji jq jv conf kappa anis Cl mu (x + y)) =
        (lxView ok).comp (apply_tmclovQ2 g ji jq jv conf kappa anis Cl mu x + apply_tmclovQ2 g ji jq jv conf kappa anis Cl mu y) := by
      rw [lx_comp]
      intro c hc
      have := lin2 1 x y c hc
      rwa [one_smul, one_smul] at this
    rw [h1, map_add]
  · have h1 : (lxView ok).comp (apply_tmclovQ2 g ji jq jv conf kappa anis Cl mu (s • x)) =
        (lxView ok).comp (s • apply_tmclovQ2 g ji jq jv conf kappa anis Cl mu x) := by
      rw [lx_comp]
      intro c hc
      have h0 := lin2 (-1) x x c hc
      have := lin2 (s - 1) x x c hc
      have e1 : x + (s - 1) • x = s • x := by rw [sub_smul, one_smul]; abel
      rw [e1] at this
      rw [this]
      show _ = s • glob g (apply_tmclovQ2 g ji jq jv conf kappa anis Cl mu x) c
      rw [sub_smul, one_smul]; abel
    rw [h1, map_smul]

/-- C42: if `inv_tmclovQ_cg` returns, the solution satisfies the system `Q(mu) sol = source` with relative residue below the requested one. -/
theorem C42_inv_tmclovQ_converged (ji : Nat) (jq : Quad) (jv : SpCol) (guess : Option (Nat → Nat → SpCol)) (conf : Nat → Nat → Quad) (kappa : ℝ)
    (anis : Option ℝ) (Cl : Nat → Nat → Clov) (mu : ℝ) (niter : Nat) (hn : 0 < niter) (residue : ℝ) (source sol : Nat → Nat → SpCol)
    (h : inv_tmclovQ_cg ok ji jq jv guess conf kappa anis Cl mu niter residue source = .ok sol) :
    let R := fun c => glob g source c - Qspec g anis (glob g conf) (1 / (2 * kappa)) (fun c => scMul (cloverBlock (glob g Cl c))) mu (glob g sol) c
    (dotS (box g.L) R R).re < residue * (dotS (box g.L) (glob g source) (glob g source)).re := by
  intro R
  unfold inv_tmclovQ_cg at h
  cases hc : inv_tmclovQ2_cg ok ji jq jv guess conf kappa anis Cl mu niter residue source with
  | error e => rw [hc] at h; cases h
  | ok t =>
    rw [hc] at h
    cases h
    have := cgField_converged _ _ (Q2_lin ok ji jq jv conf kappa anis Cl mu) guess niter hn residue source t hc
    rw [lx_dot, lx_dot] at this
    have e : ∀ c ∈ box g.L, glob g (source - apply_tmclovQ2 g ji jq jv conf kappa anis Cl mu t) c = R c := fun c hc => by
      show glob g source c - glob g (apply_tmclovQ2 g ji jq jv conf kappa anis Cl mu t) c = _
      rw [← Q_commute ok ji jq jv conf kappa anis Cl mu t hc, C40_tmclovQ ok ji jq jv conf kappa anis Cl mu _ hc]
    have e' : dotS (box g.L) (glob g (source - apply_tmclovQ2 g ji jq jv conf kappa anis Cl mu t)) (glob g (source - apply_tmclovQ2 g ji jq jv conf kappa anis Cl mu t)) =
        dotS (box g.L) R R := Finset.sum_congr rfl fun c hc => by rw [e c hc]
    rwa [e'] at this

/-- C42: it returns, for nonvanishing twisted mass and source, and a hermitian clover term, allowing more iterations than the real dimension -/
theorem C42_inv_tmclovQ_returns (ji : Nat) (jq : Quad) (jv : SpCol) (conf : Nat → Nat → Quad) (kappa : ℝ)
    (anis : Option ℝ) (Cl : Nat → Nat → Clov) (hCl : ∀ rk, rk < g.nranks → ∀ i, i < g.locVol → ClHerm (Cl rk i)) (mu : ℝ) (hm : mu ≠ 0) (niter : Nat)
    (hn : 24 * (box g.L).card < niter) (residue : ℝ) (hr : 0 < residue) (source : Nat → Nat → SpCol) (hs : ∃ c ∈ box g.L, glob g source c ≠ 0) :
    ∃ sol, inv_tmclovQ_cg ok ji jq jv none conf kappa anis Cl mu niter residue source = .ok sol := by
  have hf := fun x y => C40_tmclovQ2_form ok ji jq jv conf kappa anis Cl hCl mu x y
  have hsymm : ∀ x y : Nat → Nat → SpCol, dotS (box g.L) (glob g (apply_tmclovQ2 g ji jq jv conf kappa anis Cl mu x)) (glob g y) =
      dotS (box g.L) (glob g x) (glob g (apply_tmclovQ2 g ji jq jv conf kappa anis Cl mu y)) := by
    intro x y
    have st : ∀ u v : Coords → SpCol, star (dotS (box g.L) u v) = dotS (box g.L) v u := by
      intro u v; rw [dotS_eq, dotS_eq, star_sum]; exact Finset.sum_congr rfl fun c _ => ip_star _ _
    rw [← st, hf y x, st, hf]
  obtain ⟨t, ht⟩ := cgField_terminates _ _ (Q2_lin ok ji jq jv conf kappa anis Cl mu) (fun x y => by rw [lx_dot, lx_dot, hsymm]) (fun x hx => by
    rw [lx_dot, hsymm]
    refine (C40_tmclovQ2_positive ok ji jq jv conf kappa anis Cl hCl mu x).2 hm ?_
    by_contra hcon
    push_neg at hcon
    refine hx ?_
    funext ⟨⟨c, hc⟩, i, a⟩
    exact congrFun (congrFun (hcon c hc) i) a) niter (by
    simp only [Fintype.card_prod, Fintype.card_coe, Fintype.card_fin]; omega) residue hr source (by
    obtain ⟨c, hc, hne⟩ := hs
    intro h0
    refine hne ?_
    funext i a
    exact congrFun h0 (⟨c, hc⟩, i, a))
  unfold inv_tmclovQ_cg inv_tmclovQ2_cg
  rw [ht]
  exact ⟨_, rfl⟩

end

/-- the hypotheses are met: a constant source on the even sites and zero on the odd ones, on a lattice distributed over 8 ranks, any configuration -/
example (conf : Nat → Nat → Nat → Quad) (v : Col) (hv : v ≠ 0) : let g : Geo := ⟨![8, 4, 4, 8], ![2, 1, 2, 2]⟩
    ∃ (ok : g.Ok) (eo : EoOk g) (sol : _), inv_stD_cg ok eo 0 0 0 none conf (1 / 100) (6 * (boxP g 0).card + 1) (1 / 10 ^ 20) (fun _ p _ => if p = 0 then v else 0) = .ok sol := by
  intro g
  have ok : g.Ok := by decide
  have eo : EoOk g := by decide
  refine ⟨ok, eo, C42_inv_stD_returns ok eo 0 0 0 conf _ (by norm_num) _ (by omega) _ (by norm_num) _ ?_⟩
  have hev : ![0, 0, 0, 0] ∈ boxP g 0 := by rw [mem_boxP]; exact ⟨mem_box.2 (by decide), by decide⟩
  refine ⟨_, hev, ?_⟩
  have h0 : ∀ c ∈ boxP g 0, globEo g (fun _ p _ => if p = 0 then v else (0 : Col)) c = v := fun c hc => by
    obtain ⟨rk, e, l, h1, h2, hr, hl, hx, hF, hG⟩ := eoSiteOf ok eo (mem_boxP.1 hc).1
    rw [hF, (mem_boxP.1 hc).2]; rfl
  have h1 : ∀ c ∈ boxP g 1, globEo g (fun _ p _ => if p = 0 then v else (0 : Col)) c = 0 := fun c hc => by
    obtain ⟨rk, e, l, h1, h2, hr, hl, hx, hF, hG⟩ := eoSiteOf ok eo (mem_boxP.1 hc).1
    rw [hF, (mem_boxP.1 hc).2]; rfl
  have hw : hop g (globEo g conf) (globEo g (fun _ p _ => if p = 0 then v else (0 : Col))) ![0, 0, 0, 0] = hop g (globEo g conf) (fun d => (0 : ℂ) • (0 : Col)) ![0, 0, 0, 0] := by
    refine hop_congr fun mu => ?_
    rw [h1 _ (tshift_mem_boxP ok eo hev mu (.inl rfl)), h1 _ (tshift_mem_boxP ok eo hev mu (.inr rfl))]
    simp
  rw [h0 _ hev, hw, hop_smul g (globEo g conf) 0 (fun _ => 0), zero_smul, smul_zero, sub_zero]
  simp [hv]

end

end Nissa.Inv
