import Verif.Stencil.Lattice

/-! # Staggered Dirac operator

Models `/repo/src/dirac_operators/stD/dirac_operator_stD.hpp`.  Colours are vectors of three complex numbers; the kernels
`unsafe_su3_prod_color`, `su3_summ_the_prod_color`, `su3_dag_subt_the_prod_color` are shown to act as products on the memory in
`Color/`.  Arithmetic is exact.  What a rank reads is the memory after `updateHalo()` (`Stencil/Stencil.lean`): `ji`, `jq`, `jv`
stand for never written indices and values. -/

set_option linter.all false

namespace Nissa.StD
open Nissa.Lx Nissa.Sten Nissa.Su3f Nissa.Gauge Matrix

noncomputable section

/-- value of a `color` -/
abbrev Col := Fin 3 → ℂ

/-- `apply_st2Doe`, element `io` on the rank `rk`.  `/repo/src/dirac_operators/stD/dirac_operator_stD.hpp:46-81` -/
def apply_st2Doe (g : Geo) (ji : Nat) (jq : Quad) (jv : Col) (conf : Nat → Nat → Nat → Quad) (inp : Nat → Nat → Col) (rk io : Nat) : Col :=
  let r := coordOfLx rk g.R
  let cf := eoMem g jq conf r
  let iv := hMem g jv inp r 0
  let evup0 := eupT g r ji 1 io 0
  let evdw0 := edwT g r ji 1 io 0
  let out := (cf 1 io 0) *ᵥ iv evup0
  let out := out - (cf 0 evdw0 0)ᴴ *ᵥ iv evdw0
  ([1, 2, 3] : List Dir).foldl (fun out mu =>
    let evup := eupT g r ji 1 io mu
    let evdw := edwT g r ji 1 io mu
    let out := out + (cf 1 io mu) *ᵥ iv evup
    out - (cf 0 evdw mu)ᴴ *ᵥ iv evdw) out

/-- `apply_stDoe`.  `/repo/src/dirac_operators/stD/dirac_operator_stD.hpp:84-95` -/
def apply_stDoe (g : Geo) (ji : Nat) (jq : Quad) (jv : Col) (conf : Nat → Nat → Nat → Quad) (inp : Nat → Nat → Col) (rk io : Nat) : Col :=
  (0.5 : ℝ) • apply_st2Doe g ji jq jv conf inp rk io

/-- `apply_stDeo_half`.  `/repo/src/dirac_operators/stD/dirac_operator_stD.hpp:97-132` -/
def apply_stDeo_half (g : Geo) (ji : Nat) (jq : Quad) (jv : Col) (conf : Nat → Nat → Nat → Quad) (inp : Nat → Nat → Col) (rk ie : Nat) : Col :=
  let r := coordOfLx rk g.R
  let cf := eoMem g jq conf r
  let iv := hMem g jv inp r 1
  let odup0 := eupT g r ji 0 ie 0
  let oddw0 := edwT g r ji 0 ie 0
  let out := (cf 0 ie 0) *ᵥ iv odup0
  let out := out - (cf 1 oddw0 0)ᴴ *ᵥ iv oddw0
  let out := ([1, 2, 3] : List Dir).foldl (fun out mu =>
    let odup := eupT g r ji 0 ie mu
    let oddw := edwT g r ji 0 ie mu
    let out := out + (cf 0 ie mu) *ᵥ iv odup
    out - (cf 1 oddw mu)ᴴ *ᵥ iv oddw) out
  (0.25 : ℝ) • out

/-- first loop of `apply_stD2ee_m2`, filling `temp`.  `/repo/src/dirac_operators/stD/dirac_operator_stD.hpp:146-174` -/
def stD2Temp (g : Geo) (ji : Nat) (jq : Quad) (jv : Col) (conf : Nat → Nat → Nat → Quad) (inp : Nat → Nat → Col) (rk io : Nat) : Col :=
  let r := coordOfLx rk g.R
  let cf := eoMem g jq conf r
  let iv := hMem g jv inp r 0
  dirs.foldl (fun o mu =>
    let evup := eupT g r ji 1 io mu
    let evdw := edwT g r ji 1 io mu
    let o := o + (cf 1 io mu) *ᵥ iv evup
    o - (cf 0 evdw mu)ᴴ *ᵥ iv evdw) 0

/-- second loop of `apply_stD2ee_m2`, filling `out`.  `/repo/src/dirac_operators/stD/dirac_operator_stD.hpp:178-206` -/
def stD2Out (g : Geo) (ji : Nat) (jq : Quad) (jv : Col) (conf : Nat → Nat → Nat → Quad) (temp : Nat → Nat → Col) (rk ie : Nat) : Col :=
  let r := coordOfLx rk g.R
  let cf := eoMem g jq conf r
  let tv := hMem g jv temp r 1
  dirs.foldl (fun o mu =>
    let odup := eupT g r ji 0 ie mu
    let oddw := edwT g r ji 0 ie mu
    let o := o + (cf 0 ie mu) *ᵥ tv odup
    o - (cf 1 oddw mu)ᴴ *ᵥ tv oddw) 0

open Classical in
/-- `apply_stD2ee_m2`; `none` is the CRASH when the output is the input (`same`).
`/repo/src/dirac_operators/stD/dirac_operator_stD.hpp:134-230` -/
def apply_stD2ee_m2 (g : Geo) (ji : Nat) (jq : Quad) (jv : Col) (same : Bool) (conf : Nat → Nat → Nat → Quad) (mass2 : ℝ)
    (inp : Nat → Nat → Col) : Option (Nat → Nat → Col) :=
  if same then none else
    let temp := stD2Temp g ji jq jv conf inp
    let out := stD2Out g ji jq jv conf temp
    some (fun rk ie => if mass2 ≠ 0 then mass2 • inp rk ie - (0.25 : ℝ) • out rk ie else (-0.25 : ℝ) • out rk ie)

/-- `odd_apply_stD` (`sign=1`) and `odd_apply_stD_dag` (`sign=-1`).  `/repo/src/dirac_operators/stD/dirac_operator_stD.hpp:15-41` -/
def odd_apply_stD (g : Geo) (ji : Nat) (jq : Quad) (jv : Col) (conf : Nat → Nat → Nat → Quad) (m : ℝ) (inp : Nat → Nat → Nat → Col) (sign : ℝ)
    (rk io : Nat) : Col :=
  let d := apply_st2Doe g ji jq jv conf (fun rk e => inp rk 0 e) rk io
  m • inp rk 1 io + (0.5 * sign) • d

/-- `evn_apply_stD` (`sign=1`) and `evn_apply_stD_dag` (`sign=-1`).  `/repo/src/dirac_operators/stD/dirac_operator_stD.hpp:254-281` -/
def evn_apply_stD (g : Geo) (ji : Nat) (jq : Quad) (jv : Col) (conf : Nat → Nat → Nat → Quad) (m : ℝ) (inp : Nat → Nat → Nat → Col) (sign : ℝ)
    (rk ie : Nat) : Col :=
  let d := apply_stDeo_half g ji jq jv conf (fun rk e => inp rk 1 e) rk ie
  m • inp rk 0 ie + (2 * sign) • d

/-- `apply_stD` (`sign=1`), and the pair of the two `_dag` (`sign=-1`).  `/repo/src/dirac_operators/stD/dirac_operator_stD.hpp:283-291` -/
def apply_stD (g : Geo) (ji : Nat) (jq : Quad) (jv : Col) (conf : Nat → Nat → Nat → Quad) (m : ℝ) (inp : Nat → Nat → Nat → Col) (sign : ℝ)
    (rk p e : Nat) : Col :=
  if p = 0 then evn_apply_stD g ji jq jv conf m inp sign rk e else odd_apply_stD g ji jq jv conf m inp sign rk e

/-! ### Specification, on the global lattice -/

/-- twice the massless operator: `sum_mu U_mu(c) x(c+mu) - U_mu(c-mu)^+ x(c-mu)` -/
def hop (g : Geo) (U : Coords → Quad) (x : Coords → Col) (c : Coords) : Col :=
  ∑ mu : Dir, ((U c mu) *ᵥ x (tshift g c mu 1) - (U (tshift g c mu (-1)) mu)ᴴ *ᵥ x (tshift g c mu (-1)))

/-- the sesquilinear form on the sites of a set -/
def dot (s : Finset Coords) (y x : Coords → Col) : ℂ := ∑ c ∈ s, star (y c) ⬝ᵥ x c

theorem hop_congr {g : Geo} {U : Coords → Quad} {x y : Coords → Col} {c : Coords}
    (h : ∀ mu, x (tshift g c mu 1) = y (tshift g c mu 1) ∧ x (tshift g c mu (-1)) = y (tshift g c mu (-1))) : hop g U x c = hop g U y c := by
  unfold hop
  refine Finset.sum_congr rfl fun mu _ => ?_
  rw [(h mu).1, (h mu).2]

theorem hopFold (g : Geo) (U : Coords → Quad) (x : Coords → Col) (c : Coords) :
    dirs.foldl (fun o mu => o + (U c mu) *ᵥ x (tshift g c mu 1) - (U (tshift g c mu (-1)) mu)ᴴ *ᵥ x (tshift g c mu (-1))) 0 = hop g U x c := by
  simp only [dirs, List.foldl, hop, Fin.sum_univ_four]
  abel

theorem hopFold' (g : Geo) (U : Coords → Quad) (x : Coords → Col) (c : Coords) :
    ([1, 2, 3] : List Dir).foldl (fun o mu => o + (U c mu) *ᵥ x (tshift g c mu 1) - (U (tshift g c mu (-1)) mu)ᴴ *ᵥ x (tshift g c mu (-1)))
      ((U c 0) *ᵥ x (tshift g c 0 1) - (U (tshift g c 0 (-1)) 0)ᴴ *ᵥ x (tshift g c 0 (-1))) = hop g U x c := by
  rw [← hopFold]
  simp only [dirs, List.foldl, zero_add]

section
variable {g : Geo} (ok : g.Ok) (eo : EoOk g)
include ok eo

/-- C39: `apply_st2Doe` on any rank -/
theorem C39_st2Doe (ji : Nat) (jq : Quad) (jv : Col) (conf : Nat → Nat → Nat → Quad) (inp : Nat → Nat → Col) {c : Coords} (hc : c ∈ boxP g 1) :
    globH g (apply_st2Doe g ji jq jv conf inp) c = hop g (globEo g conf) (globH g inp) c := by
  obtain ⟨hb, hp⟩ := mem_boxP.1 hc
  obtain ⟨rk, e, l, h1, h2, hr, hl, hx, -, hG⟩ := eoSiteOf ok eo hb
  rw [hp] at hl
  rw [hG, ← hopFold']
  unfold apply_st2Doe hMem globH
  simp only
  have U0 := eoMem_here ok eo jq conf hr (by omega) h2 hl hx
  have Ud := fun mu => eoMem_dw ok eo jq ji conf hr (by omega) h2 hl hx mu
  have vu := fun mu => eoMem_up ok eo jv ji (fun rk _ e => inp rk e) hr (by omega) h2 hl hx mu
  have vd := fun mu => eoMem_dw ok eo jv ji (fun rk _ e => inp rk e) hr (by omega) h2 hl hx mu
  rw [show (1 : Nat) - 1 = 0 from rfl] at *
  simp only [U0, Ud, vu, vd]

theorem C39_stDoe (ji : Nat) (jq : Quad) (jv : Col) (conf : Nat → Nat → Nat → Quad) (inp : Nat → Nat → Col) {c : Coords} (hc : c ∈ boxP g 1) :
    globH g (apply_stDoe g ji jq jv conf inp) c = (1 / 2 : ℝ) • hop g (globEo g conf) (globH g inp) c := by
  rw [← C39_st2Doe ok eo ji jq jv conf inp hc]
  obtain ⟨rk, e, l, h1, h2, hr, hl, hx, -, hG⟩ := eoSiteOf ok eo (mem_boxP.1 hc).1
  rw [hG, hG]
  unfold apply_stDoe
  norm_num

theorem C39_stDeo_half (ji : Nat) (jq : Quad) (jv : Col) (conf : Nat → Nat → Nat → Quad) (inp : Nat → Nat → Col) {c : Coords} (hc : c ∈ boxP g 0) :
    globH g (apply_stDeo_half g ji jq jv conf inp) c = (1 / 4 : ℝ) • hop g (globEo g conf) (globH g inp) c := by
  obtain ⟨hb, hp⟩ := mem_boxP.1 hc
  obtain ⟨rk, e, l, h1, h2, hr, hl, hx, -, hG⟩ := eoSiteOf ok eo hb
  rw [hp] at hl
  rw [hG, ← hopFold']
  unfold apply_stDeo_half hMem globH
  simp only
  have U0 := eoMem_here ok eo jq conf hr (by omega) h2 hl hx
  have Ud := fun mu => eoMem_dw ok eo jq ji conf hr (by omega) h2 hl hx mu
  have vu := fun mu => eoMem_up ok eo jv ji (fun rk _ e => inp rk e) hr (by omega) h2 hl hx mu
  have vd := fun mu => eoMem_dw ok eo jv ji (fun rk _ e => inp rk e) hr (by omega) h2 hl hx mu
  rw [show (1 : Nat) - 0 = 1 from rfl] at *
  simp only [U0, Ud, vu, vd]
  norm_num

theorem temp_eq (ji : Nat) (jq : Quad) (jv : Col) (conf : Nat → Nat → Nat → Quad) (inp : Nat → Nat → Col) {c : Coords} (hc : c ∈ boxP g 1) :
    globH g (stD2Temp g ji jq jv conf inp) c = hop g (globEo g conf) (globH g inp) c := by
  obtain ⟨hb, hp⟩ := mem_boxP.1 hc
  obtain ⟨rk, e, l, h1, h2, hr, hl, hx, -, hG⟩ := eoSiteOf ok eo hb
  rw [hp] at hl
  rw [hG, ← hopFold]
  unfold stD2Temp hMem globH
  simp only
  have U0 := eoMem_here ok eo jq conf hr (by omega) h2 hl hx
  have Ud := fun mu => eoMem_dw ok eo jq ji conf hr (by omega) h2 hl hx mu
  have vu := fun mu => eoMem_up ok eo jv ji (fun rk _ e => inp rk e) hr (by omega) h2 hl hx mu
  have vd := fun mu => eoMem_dw ok eo jv ji (fun rk _ e => inp rk e) hr (by omega) h2 hl hx mu
  rw [show (1 : Nat) - 1 = 0 from rfl] at *
  simp only [U0, Ud, vu, vd]

theorem out_eq (ji : Nat) (jq : Quad) (jv : Col) (conf : Nat → Nat → Nat → Quad) (inp : Nat → Nat → Col) {c : Coords} (hc : c ∈ boxP g 0) :
    globH g (stD2Out g ji jq jv conf inp) c = hop g (globEo g conf) (globH g inp) c := by
  obtain ⟨hb, hp⟩ := mem_boxP.1 hc
  obtain ⟨rk, e, l, h1, h2, hr, hl, hx, -, hG⟩ := eoSiteOf ok eo hb
  rw [hp] at hl
  rw [hG, ← hopFold]
  unfold stD2Out hMem globH
  simp only
  have U0 := eoMem_here ok eo jq conf hr (by omega) h2 hl hx
  have Ud := fun mu => eoMem_dw ok eo jq ji conf hr (by omega) h2 hl hx mu
  have vu := fun mu => eoMem_up ok eo jv ji (fun rk _ e => inp rk e) hr (by omega) h2 hl hx mu
  have vd := fun mu => eoMem_dw ok eo jv ji (fun rk _ e => inp rk e) hr (by omega) h2 hl hx mu
  rw [show (1 : Nat) - 0 = 1 from rfl] at *
  simp only [U0, Ud, vu, vd]

/-- C39: `apply_stD2ee_m2` computes `m^2 - (hop/2)^2` on the even sites of the global lattice, on any grid of ranks, for any mass (the
branch for the null mass included); it crashes exactly when asked to work in place. -/
theorem C39_stD2ee (ji : Nat) (jq : Quad) (jv : Col) (conf : Nat → Nat → Nat → Quad) (mass2 : ℝ) (inp : Nat → Nat → Col) :
    apply_stD2ee_m2 g ji jq jv true conf mass2 inp = none ∧
    ∃ out, apply_stD2ee_m2 g ji jq jv false conf mass2 inp = some out ∧ ∀ c ∈ boxP g 0,
      globH g out c = mass2 • globH g inp c - (1 / 4 : ℝ) • hop g (globEo g conf) (hop g (globEo g conf) (globH g inp)) c := by
  refine ⟨rfl, _, rfl, fun c hc => ?_⟩
  have key : globH g (stD2Out g ji jq jv conf (stD2Temp g ji jq jv conf inp)) c =
      hop g (globEo g conf) (hop g (globEo g conf) (globH g inp)) c := by
    rw [out_eq ok eo ji jq jv conf _ hc]
    refine hop_congr fun mu => ⟨?_, ?_⟩
    · exact temp_eq ok eo ji jq jv conf inp (tshift_mem_boxP ok eo hc mu (.inl rfl))
    · exact temp_eq ok eo ji jq jv conf inp (tshift_mem_boxP ok eo hc mu (.inr rfl))
  obtain ⟨rk, e, l, h1, h2, hr, hl, hx, -, hG⟩ := eoSiteOf ok eo (mem_boxP.1 hc).1
  rw [← key, hG, hG, hG]
  by_cases hm : mass2 = 0
  · simp [hm]; norm_num
  · simp only [hm, ne_eq, not_false_eq_true, if_true]; norm_num

/-- C39: `apply_stD`, and its dagger, on the full lattice: `m x +- hop x/2` -/
theorem C39_stD (ji : Nat) (jq : Quad) (jv : Col) (conf : Nat → Nat → Nat → Quad) (m : ℝ) (inp : Nat → Nat → Nat → Col) (sign : ℝ) {c : Coords}
    (hc : c ∈ box g.L) :
    globEo g (apply_stD g ji jq jv conf m inp sign) c = m • globEo g inp c + (sign / 2) • hop g (globEo g conf) (globEo g inp) c := by
  obtain ⟨rk, e, l, h1, h2, hr, hl, hx, hF, hG⟩ := eoSiteOf ok eo hc
  have part : ∀ p, p < 2 → par c = 1 - p → hop g (globEo g conf) (globH g fun rk e => inp rk p e) c = hop g (globEo g conf) (globEo g inp) c := by
    intro p hp hpar
    refine hop_congr fun mu => ?_
    have hb : c ∈ boxP g (1 - p) := mem_boxP.2 ⟨hc, hpar⟩
    have go : ∀ y ∈ boxP g p, globH g (fun rk e => inp rk p e) y = globEo g inp y := by
      intro y hy
      obtain ⟨rk, e, l, h1, h2, hr, hl, hx, hF, hG⟩ := eoSiteOf ok eo (mem_boxP.1 hy).1
      rw [hF, hG, (mem_boxP.1 hy).2]
    have hu := tshift_mem_boxP ok eo hb mu (d := 1) (.inl rfl)
    have hd := tshift_mem_boxP ok eo hb mu (d := -1) (.inr rfl)
    rw [show 1 - (1 - p) = p by omega] at hu hd
    exact ⟨go _ hu, go _ hd⟩
  rw [hF, hF]
  have h2 : par c = 0 ∨ par c = 1 := by have := par_lt ok eo c; omega
  rcases h2 with hp | hp
  · rw [← part 1 (by omega) hp]
    have := C39_stDeo_half ok eo ji jq jv conf (fun rk e => inp rk 1 e) (mem_boxP.2 ⟨hc, hp⟩)
    rw [hG] at this
    unfold apply_stD
    rw [if_pos hp, hp]
    unfold evn_apply_stD
    simp only
    rw [this, smul_smul]
    congr 2
    ring
  · rw [← part 0 (by omega) hp]
    have := C39_st2Doe ok eo ji jq jv conf (fun rk e => inp rk 0 e) (mem_boxP.2 ⟨hc, hp⟩)
    rw [hG] at this
    unfold apply_stD
    rw [if_neg (by omega), hp]
    unfold odd_apply_stD
    simp only
    rw [this]
    congr 2
    ring

/-- hopping from one parity is minus the adjoint of the hopping from the other one -/
theorem hop_antihermitian_parity (U : Coords → Quad) {p : Nat} (hp : p < 2) (y x : Coords → Col) :
    dot (boxP g p) y (hop g U x) = - dot (boxP g (1 - p)) (hop g U y) x := by
  unfold dot hop
  have e1 : ∀ c, star (y c) ⬝ᵥ (∑ mu : Dir, ((U c mu) *ᵥ x (tshift g c mu 1) - (U (tshift g c mu (-1)) mu)ᴴ *ᵥ x (tshift g c mu (-1)))) =
      ∑ mu : Dir, (star (y c) ⬝ᵥ ((U c mu) *ᵥ x (tshift g c mu 1)) - star (y c) ⬝ᵥ ((U (tshift g c mu (-1)) mu)ᴴ *ᵥ x (tshift g c mu (-1)))) := by
    intro c
    rw [dotProduct_sum]
    exact Finset.sum_congr rfl fun mu _ => dotProduct_sub _ _ _
  have e2 : ∀ c, star (∑ mu : Dir, ((U c mu) *ᵥ y (tshift g c mu 1) - (U (tshift g c mu (-1)) mu)ᴴ *ᵥ y (tshift g c mu (-1)))) ⬝ᵥ x c =
      ∑ mu : Dir, (star (y (tshift g c mu 1)) ⬝ᵥ ((U c mu)ᴴ *ᵥ x c) - star (y (tshift g c mu (-1))) ⬝ᵥ ((U (tshift g c mu (-1)) mu) *ᵥ x c)) := by
    intro c
    rw [star_sum, sum_dotProduct]
    refine Finset.sum_congr rfl fun mu _ => ?_
    rw [star_sub, sub_dotProduct, star_mulVec, star_mulVec, conjTranspose_conjTranspose, dotProduct_mulVec, dotProduct_mulVec]
  simp only [e1, e2]
  rw [Finset.sum_comm, Finset.sum_comm (s := boxP g (1 - p)), ← Finset.sum_neg_distrib]
  refine Finset.sum_congr rfl fun mu _ => ?_
  rw [Finset.sum_sub_distrib, Finset.sum_sub_distrib]
  rw [sum_shift_parity ok eo hp mu (.inl rfl) (fun c d => star (y c) ⬝ᵥ ((U c mu) *ᵥ x d))]
  rw [sum_shift_parity ok eo hp mu (.inr rfl) (fun c d => star (y c) ⬝ᵥ ((U d mu)ᴴ *ᵥ x d))]
  rw [neg_neg]
  ring

theorem dot_parities (y x : Coords → Col) : dot (box g.L) y x = dot (boxP g 0) y x + dot (boxP g 1) y x := sum_parities _

/-- C39: the hopping is anti-hermitian -/
theorem C39_hop_antihermitian (U : Coords → Quad) (y x : Coords → Col) :
    dot (box g.L) y (hop g U x) = - dot (box g.L) (hop g U y) x := by
  rw [dot_parities ok eo, dot_parities ok eo, hop_antihermitian_parity ok eo U (by omega : 0 < 2), hop_antihermitian_parity ok eo U (by omega : 1 < 2)]
  norm_num
  try ring

omit ok eo in
theorem dot_add (s : Finset Coords) (y x x' : Coords → Col) : dot s y (x + x') = dot s y x + dot s y x' := by
  unfold dot
  rw [← Finset.sum_add_distrib]
  exact Finset.sum_congr rfl fun c _ => dotProduct_add _ _ _
omit ok eo in
theorem dot_smul (s : Finset Coords) (a : ℝ) (y x : Coords → Col) : dot s y (a • x) = a * dot s y x := by
  unfold dot
  rw [Finset.mul_sum]
  refine Finset.sum_congr rfl fun c _ => ?_
  rw [Pi.smul_apply, dotProduct_smul]
  exact Complex.real_smul
omit ok eo in
theorem add_dot (s : Finset Coords) (y y' x : Coords → Col) : dot s (y + y') x = dot s y x + dot s y' x := by
  unfold dot
  rw [← Finset.sum_add_distrib]
  exact Finset.sum_congr rfl fun c _ => by rw [Pi.add_apply, star_add, add_dotProduct]
omit ok eo in
theorem smul_dot (s : Finset Coords) (a : ℝ) (y x : Coords → Col) : dot s (a • y) x = a * dot s y x := by
  unfold dot
  rw [Finset.mul_sum]
  refine Finset.sum_congr rfl fun c _ => ?_
  rw [Pi.smul_apply, star_smul, smul_dotProduct]
  exact Complex.real_smul
omit ok eo in
theorem dot_congr {s : Finset Coords} {y y' x x' : Coords → Col} (hy : ∀ c ∈ s, y c = y' c) (hx : ∀ c ∈ s, x c = x' c) : dot s y x = dot s y' x' :=
  Finset.sum_congr rfl fun c hc => by rw [hy c hc, hx c hc]

/-- C39: the operator applied with the opposite sign is the adjoint, for the scalar product on the global lattice. -/
theorem C39_stD_adjoint (ji : Nat) (jq : Quad) (jv : Col) (conf : Nat → Nat → Nat → Quad) (m sign : ℝ) (x y : Nat → Nat → Nat → Col) :
    dot (box g.L) (globEo g y) (globEo g (apply_stD g ji jq jv conf m x sign)) =
      dot (box g.L) (globEo g (apply_stD g ji jq jv conf m y (-sign))) (globEo g x) := by
  rw [dot_congr (fun _ _ => rfl) (fun c hc => C39_stD ok eo ji jq jv conf m x sign hc)]
  rw [dot_congr (fun c hc => C39_stD ok eo ji jq jv conf m y (-sign) hc) (fun _ _ => rfl)]
  have a1 : (fun c => m • globEo g x c + (sign / 2) • hop g (globEo g conf) (globEo g x) c) =
      m • globEo g x + (sign / 2) • hop g (globEo g conf) (globEo g x) := rfl
  have a2 : (fun c => m • globEo g y c + (-sign / 2) • hop g (globEo g conf) (globEo g y) c) =
      m • globEo g y + (-sign / 2) • hop g (globEo g conf) (globEo g y) := rfl
  rw [a1, a2, dot_add, add_dot, dot_smul, dot_smul, smul_dot, smul_dot, C39_hop_antihermitian ok eo]
  push_cast
  ring

/-- C39: `apply_stD2ee_m2` is hermitian and `<y,Ax> = m^2 <y,x> + <hop y,hop x>/4`: in particular `<x,Ax>` is real and at least `m^2 <x,x>`. -/
theorem C39_stD2ee_form (ji : Nat) (jq : Quad) (jv : Col) (conf : Nat → Nat → Nat → Quad) (mass2 : ℝ) (x y : Nat → Nat → Col)
    (out : Nat → Nat → Col) (ho : apply_stD2ee_m2 g ji jq jv false conf mass2 x = some out) :
    dot (boxP g 0) (globH g y) (globH g out) = mass2 * dot (boxP g 0) (globH g y) (globH g x) +
      1 / 4 * dot (boxP g 1) (hop g (globEo g conf) (globH g y)) (hop g (globEo g conf) (globH g x)) := by
  obtain ⟨-, out', ho', hs⟩ := C39_stD2ee ok eo ji jq jv conf mass2 x
  rw [ho] at ho'; cases ho'
  rw [dot_congr (fun _ _ => rfl) hs]
  have a1 : (fun c => mass2 • globH g x c - (1 / 4 : ℝ) • hop g (globEo g conf) (hop g (globEo g conf) (globH g x)) c) =
      mass2 • globH g x + (-1 / 4 : ℝ) • hop g (globEo g conf) (hop g (globEo g conf) (globH g x)) := by
    funext c; simp only [Pi.add_apply, Pi.smul_apply, neg_div, neg_smul, Pi.neg_apply]; abel
  rw [a1, dot_add, dot_smul, dot_smul, hop_antihermitian_parity ok eo _ (by omega : 0 < 2)]
  push_cast
  ring

theorem dot_self_nonneg (s : Finset Coords) (x : Coords → Col) : 0 ≤ (dot s x x).re ∧ (dot s x x).im = 0 := by
  unfold dot
  rw [Complex.re_sum, Complex.im_sum]
  have : ∀ c, 0 ≤ (star (x c) ⬝ᵥ x c).re ∧ (star (x c) ⬝ᵥ x c).im = 0 := by
    intro c
    simp only [dotProduct, Fin.sum_univ_three, Pi.star_apply, Complex.star_def, Complex.add_re, Complex.add_im, Complex.mul_re, Complex.mul_im,
      Complex.conj_re, Complex.conj_im]
    constructor
    · have h : ∀ a b : ℝ, a * a - -b * b = a * a + b * b := by intros; ring
      rw [h, h, h]; nlinarith [mul_self_nonneg (x c 0).re, mul_self_nonneg (x c 1).re, mul_self_nonneg (x c 2).re, mul_self_nonneg (x c 0).im, mul_self_nonneg (x c 1).im, mul_self_nonneg (x c 2).im]
    · ring
  exact ⟨Finset.sum_nonneg fun c _ => (this c).1, Finset.sum_eq_zero fun c _ => (this c).2⟩

theorem C39_stD2ee_positive (ji : Nat) (jq : Quad) (jv : Col) (conf : Nat → Nat → Nat → Quad) (mass2 : ℝ) (x : Nat → Nat → Col)
    (out : Nat → Nat → Col) (ho : apply_stD2ee_m2 g ji jq jv false conf mass2 x = some out) :
    (dot (boxP g 0) (globH g x) (globH g out)).im = 0 ∧
      mass2 * (dot (boxP g 0) (globH g x) (globH g x)).re ≤ (dot (boxP g 0) (globH g x) (globH g out)).re := by
  rw [C39_stD2ee_form ok eo ji jq jv conf mass2 x x out ho]
  have h1 := dot_self_nonneg ok eo (boxP g 0) (globH g x)
  have h2 := dot_self_nonneg ok eo (boxP g 1) (hop g (globEo g conf) (globH g x))
  have e : ∀ z : ℂ, (1 / 4 : ℂ) * z = ((1 / 4 : ℝ) : ℂ) * z := by intro z; norm_num
  rw [e]
  simp only [Complex.add_im, Complex.add_re, Complex.re_ofReal_mul, Complex.im_ofReal_mul, h1.2, h2.2]
  constructor
  · ring
  · linarith [h2.1]

/-- C39: the square of the full operator is diagonal in parity: applying `apply_stD` and then its dagger gives, on the even sites, the result of
`apply_stD2ee_m2` with `mass2=m^2`, for an input vanishing on the odd sites. -/
theorem C39_stD_square (ji : Nat) (jq : Quad) (jv : Col) (conf : Nat → Nat → Nat → Quad) (m : ℝ) (x : Nat → Nat → Nat → Col) (c : Coords)
    (hc : c ∈ box g.L) :
    globEo g (apply_stD g ji jq jv conf m (apply_stD g ji jq jv conf m x 1) (-1)) c =
      (m ^ 2) • globEo g x c - (1 / 4 : ℝ) • hop g (globEo g conf) (hop g (globEo g conf) (globEo g x)) c := by
  rw [C39_stD ok eo ji jq jv conf m _ _ hc, C39_stD ok eo ji jq jv conf m _ _ hc]
  have : hop g (globEo g conf) (globEo g (apply_stD g ji jq jv conf m x 1)) c =
      hop g (globEo g conf) (fun c => m • globEo g x c + (1 / 2 : ℝ) • hop g (globEo g conf) (globEo g x) c) c := by
    refine hop_congr fun mu => ⟨?_, ?_⟩
    · exact C39_stD ok eo ji jq jv conf m x 1 (tshift_mem_box ok hc mu 1)
    · exact C39_stD ok eo ji jq jv conf m x 1 (tshift_mem_box ok hc mu (-1))
  rw [this]
  have lin : ∀ (a b : ℝ) (u v : Coords → Col), hop g (globEo g conf) (fun c => a • u c + b • v c) c =
      a • hop g (globEo g conf) u c + b • hop g (globEo g conf) v c := by
    intro a b u v
    unfold hop
    rw [Finset.smul_sum, Finset.smul_sum, ← Finset.sum_add_distrib]
    refine Finset.sum_congr rfl fun mu _ => ?_
    rw [mulVec_add, mulVec_add, mulVec_smul, mulVec_smul, mulVec_smul, mulVec_smul, smul_sub, smul_sub]
    abel
  rw [lin]
  rw [smul_add, smul_add, smul_smul, smul_smul, smul_smul, smul_smul]
  have e1 : m * (1 / 2) = 1 / 2 * m := by ring
  have e2 : (-1 / 2 : ℝ) * m = - (1 / 2 * m) := by ring
  have e3 : (-1 / 2 : ℝ) * (1 / 2) = - (1 / 4) := by ring
  rw [e1, e2, e3, neg_smul, neg_smul, pow_two]
  abel

end

/-- C39: gauge covariance: for a unitary gauge transformation, the operator of the transformed configuration on the transformed vector is the
transformed result. -/
theorem C39_hop_covariant {g : Geo} (ok : g.Ok) (G : Coords → M3) (hG : AllUnitary g G) (U : Coords → Quad) (x : Coords → Col) {c : Coords}
    (hc : c ∈ box g.L) : hop g (transformed g G U) (fun c => G c *ᵥ x c) c = G c *ᵥ hop g U x c := by
  unfold hop transformed
  have hG' : ∀ c ∈ box g.L, G c * (G c)ᴴ = 1 := fun c hc => mul_eq_one_comm.1 (hG c hc)
  rw [mulVec_sum]
  refine Finset.sum_congr rfl fun mu _ => ?_
  have b1 := tshift_mem_box ok hc mu 1
  have b2 := tshift_mem_box ok hc mu (-1)
  rw [show tshift g (tshift g c mu (-1)) mu 1 = c from by
    have := Nissa.Paths.tshift_back ok hc mu (-1) (.inr rfl); rwa [neg_neg] at this]
  rw [mulVec_sub, mulVec_mulVec, mulVec_mulVec, conjTranspose_mul, conjTranspose_mul, conjTranspose_conjTranspose]
  rw [Matrix.mul_assoc (G c * U c mu), hG _ b1, Matrix.mul_one]
  rw [Matrix.mul_assoc (G c), Matrix.mul_assoc _ _ (G (tshift g c mu (-1))), hG _ b2, Matrix.mul_one]
  rw [mulVec_mulVec, mulVec_mulVec]

/-- hypotheses are met: an even/odd lattice on 8 ranks, with a non trivial gauge transformation -/
example : Geo.Ok ⟨![8, 4, 4, 8], ![2, 1, 2, 2]⟩ ∧ EoOk ⟨![8, 4, 4, 8], ![2, 1, 2, 2]⟩ ∧
    AllUnitary ⟨![8, 4, 4, 8], ![2, 1, 2, 2]⟩ (fun c => if c 0 = 1 then (-1) else 1) := by
  refine ⟨by decide, by decide, fun c _ => ?_⟩
  by_cases h : c 0 = 1 <;> simp [h]

end

end Nissa.StD
