import Verif.Dirac.PropsClover
import Verif.Color.PropsSu3Iter

/-! # Smearing of the links: Wilson flow, stout, APE

Models `update_arg`, `update_conf`, `Wflow_lx_conf` (`/repo/src/operations/smearing/Wflow.hpp:20-95, 350-366`), the stout smearing
on full and even/odd fields (`/repo/src/operations/smearing/stout_lx.cpp:16-133`, `stout.hpp:86-118, 142-161`, `stout_eo.cpp:18-180`)
and `ape_smear_conf` (`/repo/src/operations/smearing/APE.cpp:9-84`, `APE.hpp:64-108`).

Simplifications: exact real arithmetic; the loops on the sites write only the element of the site itself, from fields which are not
changed by the loop (or, in `update_conf`, from the element itself), so that they are the map of their body; the printings are left out. -/

set_option linter.all false

namespace Nissa.LSm
open Nissa.Lx Nissa.Sten Nissa.Su3f Nissa.Gauge Nissa.Paths Nissa.Clv Matrix Complex

noncomputable section

/-- value of `WhichDirs` -/
abbrev WhichDirs := Dir → Bool

/-- the two staples in the plane `mu,nu` added to `staple`.  `/repo/src/operations/smearing/Wflow.hpp:50-57` -/
def stapleStep (up dw : Nat → Dir → Nat) (conf : Nat → Quad) (ivol : Nat) (mu : Dir) (staple : M3) (nu : Dir) : M3 :=
  let A := ivol
  let B := up A nu
  let D := dw A nu
  let E := up D mu
  let F := up A mu
  let temp := conf A nu * conf B mu
  let staple := staple + temp * (conf F nu)ᴴ
  let temp := (conf D nu)ᴴ * conf D mu
  staple + temp * conf E nu

/-- `RK_wn`.  `/repo/src/operations/smearing/Wflow.hpp:29` -/
def RK_wn : Fin 3 → ℝ := ![1.0 / 4, 8.0 / 9, 3.0 / 4]
/-- `RK_wo`.  `/repo/src/operations/smearing/Wflow.hpp:30` -/
def RK_wo : Fin 3 → ℝ := ![0, -17.0 / 9, -1]

/-- `update_arg`: the new content of `arg`; `j0` the content of the uninitialised `iQ`.
`/repo/src/operations/smearing/Wflow.hpp:20-73` -/
def update_arg (g : Geo) (ji : Nat) (jq : Quad) (j0 : M3) (arg conf : Nat → Nat → Quad) (dt : ℝ) (dirs : WhichDirs) (iter : Fin 3) :
    Nat → Nat → Quad := fun rk ivol mu =>
  let r := coordOfLx rk g.R
  let c := mem g jq conf r
  if dirs mu then
    let staple := (Geo.perpDirs mu).foldl (stapleStep (upT g r ji) (dwT g r ji) c ivol mu) 0
    let omega := staple * (c ivol mu)ᴴ
    let iQ := su3_traceless_anti_hermitian_part omega j0
    let Q := su3_prod_idouble iQ (-RK_wn iter * dt)
    RK_wo iter • arg rk ivol mu + Q
  else arg rk ivol mu

/-- `update_conf`.  `/repo/src/operations/smearing/Wflow.hpp:76-95` -/
def update_conf (arg conf : Nat → Nat → Quad) (dirs : WhichDirs) : Nat → Nat → Quad := fun rk ivol mu =>
  if dirs mu then hermitian_exact_i_exponentiate (arg rk ivol mu) * conf rk ivol mu else conf rk ivol mu

/-- one turn of the loop of `Wflow_lx_conf`.  `/repo/src/operations/smearing/Wflow.hpp:360-364` -/
def flowTurn (g : Geo) (ji : Nat) (jq : Quad) (j0 : M3) (dt : ℝ) (dirs : WhichDirs) (s : (Nat → Nat → Quad) × (Nat → Nat → Quad)) (iter : Fin 3) :
    (Nat → Nat → Quad) × (Nat → Nat → Quad) :=
  let arg := update_arg g ji jq j0 s.1 s.2 dt dirs iter
  (arg, update_conf arg s.2 dirs)

/-- `Wflow_lx_conf`.  `/repo/src/operations/smearing/Wflow.hpp:350-366` -/
def Wflow_lx_conf (g : Geo) (ji : Nat) (jq : Quad) (j0 : M3) (conf : Nat → Nat → Quad) (dt : ℝ) (dirs : WhichDirs) : Nat → Nat → Quad :=
  (([0, 1, 2] : List (Fin 3)).foldl (flowTurn g ji jq j0 dt dirs) (fun _ _ _ => 0, conf)).2

/-- `stout_smear_compute_weighted_staples`, full field: body of the loop.  `/repo/src/operations/smearing/stout_lx.cpp:29-43` -/
def wStapleStep (up dw : Nat → Dir → Nat) (conf : Nat → Quad) (rho : ℝ) (A : Nat) (mu : Dir) (staples : M3) (nu : Dir) : M3 :=
  let B := up A nu
  let F := up A mu
  let temp1 := conf A nu * conf B mu
  let temp2 := temp1 * (conf F nu)ᴴ
  let staples := staples + rho • temp2
  let D := dw A nu
  let E := up D mu
  let temp1 := (conf D nu)ᴴ * conf D mu
  let temp2 := temp1 * conf E nu
  staples + rho • temp2

/-- `stout_smear_compute_staples`: from the weighted staples to `Q`.  `/repo/src/operations/smearing/stout_lx.cpp:49-68` -/
def stoutQ (C U j0 : M3) : M3 :=
  let Omega := C * Uᴴ
  let iQ := su3_traceless_anti_hermitian_part Omega j0
  su3_prod_idouble iQ (-1)

/-- `stout_smear_single_level`, full field: the new content of `out`, whose directions not smeared are left as they were (`out` and
`in` distinct).  `/repo/src/operations/smearing/stout_lx.cpp:71-105` -/
def stout_smear_single_level (g : Geo) (ji : Nat) (jq : Quad) (j0 : M3) (out inp : Nat → Nat → Quad) (rho : ℝ) (dirs : WhichDirs) :
    Nat → Nat → Quad := fun rk A mu =>
  let r := coordOfLx rk g.R
  let c := mem g jq inp r
  if dirs mu then
    let C := (Geo.perpDirs mu).foldl (wStapleStep (upT g r ji) (dwT g r ji) c rho A mu) 0
    let Q := stoutQ C (c A mu) j0
    hermitian_exact_i_exponentiate Q * c A mu
  else out rk A mu

/-- `stout_smear`, full field: `niter` levels.  `/repo/src/operations/smearing/stout_lx.cpp:108-133` -/
def stout_smear (g : Geo) (ji : Nat) (jq : Quad) (j0 : M3) (out inp : Nat → Nat → Quad) (nlevels : Int) (rho : ℝ) (dirs : WhichDirs) :
    Nat → Nat → Quad :=
  if nlevels < 1 then inp
  else (List.range nlevels.toNat).foldl (fun out iter =>
    let temp := if iter = 0 then inp else out
    stout_smear_single_level g ji jq j0 out temp rho dirs) out

/-- `stout_smear_compute_weighted_staples`, even/odd: body of the loop, executed for `nu!=mu`.
`/repo/src/operations/smearing/stout.hpp:103-117` -/
def wStapleStepEo (up dw : Nat → Nat → Dir → Nat) (conf : Nat → Nat → Quad) (rho : ℝ) (p A : Nat) (mu : Dir) (staples : M3) (nu : Dir) : M3 :=
  if nu ≠ mu then
    let B := up p A nu
    let F := up p A mu
    let temp1 := conf p A nu * conf (1 - p) B mu
    let temp2 := temp1 * (conf (1 - p) F nu)ᴴ
    let staples := staples + rho • temp2
    let D := dw p A nu
    let E := up (1 - p) D mu
    let temp1 := (conf (1 - p) D nu)ᴴ * conf (1 - p) D mu
    let temp2 := temp1 * conf p E nu
    staples + rho • temp2
  else staples

/-- `stout_smear_single_level`, even/odd: the directions not smeared are copied.
`/repo/src/operations/smearing/stout_eo.cpp:18-109`, `stout.hpp:142-161` -/
def stout_smear_single_level_eo (g : Geo) (ji : Nat) (jq : Quad) (j0 : M3) (inp : Nat → Nat → Nat → Quad) (rho : ℝ) (dirs : WhichDirs) :
    Nat → Nat → Nat → Quad := fun rk par A mu =>
  let r := coordOfLx rk g.R
  let c := eoMem g jq inp r
  if dirs mu then
    let C := Nissa.Lx.dirs.foldl (wStapleStepEo (eupT g r ji) (edwT g r ji) c rho par A mu) 0
    let Q := stoutQ C (c par A mu) j0
    hermitian_exact_i_exponentiate Q * c par A mu
  else c par A mu

/-- `stout_smear`, even/odd.  `/repo/src/operations/smearing/stout_eo.cpp:148-180` -/
def stout_smear_eo (g : Geo) (ji : Nat) (jq : Quad) (j0 : M3) (inp : Nat → Nat → Nat → Quad) (nlevels : Nat) (rho : ℝ) (dirs : WhichDirs) :
    Nat → Nat → Nat → Quad :=
  if nlevels = 0 then inp
  else (List.range (nlevels - 1)).foldl (fun out _ => stout_smear_single_level_eo g ji jq j0 out rho dirs)
    (stout_smear_single_level_eo g ji jq j0 inp rho dirs)

/-- the matrix to be projected, `prop_link`.  `/repo/src/operations/smearing/APE.cpp:44-72` -/
def apePropLink (up dw : Nat → Dir → Nat) (conf : Nat → Quad) (alpha : ℝ) (minStapleDir : Nat) (ivol : Nat) (mu : Dir) : M3 :=
  let stap := (Nissa.Lx.dirs.filter (fun nu => minStapleDir ≤ nu.val)).foldl (fun stap nu =>
    if nu ≠ mu then stapleStep up dw conf ivol mu stap nu else stap) 0
  fun icol1 icol2 => ⟨(conf ivol mu icol1 icol2).re + alpha * (stap icol1 icol2).re, (conf ivol mu icol1 icol2).im + alpha * (stap icol1 icol2).im⟩

/-- one step of `ape_smear_conf` at one link; `none` if the projection crashes.  `proj` is
`su3_unitarize_maximal_trace_projecting` with its default arguments.  `/repo/src/operations/smearing/APE.cpp:36-78` -/
def apeLink (proj : M3 → Option M3) (g : Geo) (ji : Nat) (jq : Quad) (conf : Nat → Nat → Quad) (alpha : ℝ) (dirs : WhichDirs) (minStapleDir : Nat)
    (rk ivol : Nat) (mu : Dir) : Option M3 :=
  let r := coordOfLx rk g.R
  let c := mem g jq conf r
  if dirs mu then proj (apePropLink (upT g r ji) (dwT g r ji) c alpha minStapleDir ivol mu) else some (c ivol mu)

open Classical in
/-- one step on all the links of all the ranks: `none` if any crashes.  `/repo/src/operations/smearing/APE.cpp:30-78` -/
def apeStep (proj : M3 → Option M3) (g : Geo) (ji : Nat) (jq : Quad) (alpha : ℝ) (dirs : WhichDirs) (minStapleDir : Nat) (conf : Nat → Nat → Quad) :
    Option (Nat → Nat → Quad) :=
  if ∀ rk < g.nranks, ∀ ivol < g.locVol, ∀ mu, (apeLink proj g ji jq conf alpha dirs minStapleDir rk ivol mu).isSome then
    some (fun rk ivol mu => (apeLink proj g ji jq conf alpha dirs minStapleDir rk ivol mu).getD 0)
  else none

/-- `ape_smear_conf`: content of `smearConf` at the end (`conf` is taken by value).  `/repo/src/operations/smearing/APE.cpp:9-84` -/
def ape_smear_conf (proj : M3 → Option M3) (g : Geo) (ji : Nat) (jq : Quad) (conf : Nat → Nat → Quad) (alpha : ℝ) (nSteps : Nat) (dirs : WhichDirs)
    (minStapleDir : Nat) : Option (Nat → Nat → Quad) :=
  (List.range nSteps).foldl (fun s _ => s.bind (apeStep proj g ji jq alpha dirs minStapleDir)) (some conf)

/-- `onlyDir`.  `/repo/src/geometry/geometry_lx.hpp:204-208` -/
def onlyDir (mu : Dir) : WhichDirs := fun nu => nu = mu
/-- `allOtherDirs`.  `/repo/src/geometry/geometry_lx.hpp:210-214` -/
def allOtherDirs (mu : Dir) : WhichDirs := fun nu => nu ≠ mu

/-- `ape_perp_dir_smear_conf`: the last argument is not used.  `/repo/src/operations/smearing/APE.hpp:81-89` -/
def ape_perp_dir_smear_conf (proj : M3 → Option M3) (g : Geo) (ji : Nat) (jq : Quad) (conf : Nat → Nat → Quad) (alpha : ℝ) (nstep : Nat) (mu : Dir)
    (min_staple_dir : Nat) : Option (Nat → Nat → Quad) :=
  ape_smear_conf proj g ji jq conf alpha nstep (allOtherDirs mu) 0

/-- `ape_spatial_smear_conf`.  `/repo/src/operations/smearing/APE.hpp:99-105` -/
def ape_spatial_smear_conf (proj : M3 → Option M3) (g : Geo) (ji : Nat) (jq : Quad) (conf : Nat → Nat → Quad) (alpha : ℝ) (nstep : Nat) :
    Option (Nat → Nat → Quad) :=
  ape_perp_dir_smear_conf proj g ji jq conf alpha nstep 0 1

/-! ### Specification, on the global lattice -/

/-- the two three-link paths from `x` to `x+mu` in the plane `(mu,nu)` -/
def staplePair (g : Geo) (U : Coords → Quad) (x : Coords) (mu nu : Dir) : M3 :=
  pathProd g U x [(nu, true), (mu, true), (nu, false)] + pathProd g U x [(nu, false), (mu, true), (nu, true)]

/-- the sum of the staples over the directions `s` orthogonal to `mu` -/
def stapleSum (g : Geo) (U : Coords → Quad) (s : Finset Dir) (x : Coords) (mu : Dir) : M3 :=
  ∑ nu ∈ s.filter (· ≠ mu), staplePair g U x mu nu

/-- projection on the traceless antihermitian matrices -/
def algPart (M : M3) : M3 := (1 / 2 : ℂ) • (M - Mᴴ) - (Matrix.trace ((1 / 2 : ℂ) • (M - Mᴴ)) / 3) • (1 : M3)

/-- the generator `Z` of the flow: algebra part of staples times `U^+` -/
def flowZ (g : Geo) (U : Coords → Quad) (x : Coords) (mu : Dir) : M3 := algPart (stapleSum g U Finset.univ x mu * (U x mu)ᴴ)

/-- multiplication of the links in the directions `dirs` by the exponential of `A` -/
def kick (E : M3 → M3) (dirs : WhichDirs) (A U : Coords → Quad) : Coords → Quad := fun x mu =>
  if dirs mu then E (A x mu) * U x mu else U x mu

/-- the three stages of the scheme of Luscher, appendix C of arXiv:1006.4518: the exponents and the configurations -/
def luscher (g : Geo) (E : M3 → M3) (dt : ℝ) (dirs : WhichDirs) (V : Coords → Quad) : Fin 3 → (Coords → Quad) × (Coords → Quad) :=
  let A0 : Coords → Quad := fun x mu => (dt / 4) • flowZ g V x mu
  let W1 := kick E dirs A0 V
  let A1 : Coords → Quad := fun x mu => (8 / 9 * dt) • flowZ g W1 x mu - (17 / 36 * dt) • flowZ g V x mu
  let W2 := kick E dirs A1 W1
  let A2 : Coords → Quad := fun x mu => (3 / 4 * dt) • flowZ g W2 x mu - (8 / 9 * dt) • flowZ g W1 x mu + (17 / 36 * dt) • flowZ g V x mu
  let W3 := kick E dirs A2 W2
  ![(A0, W1), (A1, W2), (A2, W3)]

/-- stout smearing of Morningstar and Peardon: `exp(rho Z) U` -/
def stoutSpec (g : Geo) (E : M3 → M3) (rho : ℝ) (dirs : WhichDirs) (U : Coords → Quad) : Coords → Quad :=
  kick E dirs (fun x mu => rho • flowZ g U x mu) U

/-! ### Staples -/

theorem idouble_eq (b : M3) (r : ℝ) : su3_prod_idouble b r = (I * (r : ℂ)) • b := by
  ext i j
  apply Complex.ext <;> simp [su3_prod_idouble] <;> ring

theorem algPart_eq (M j0 : M3) : su3_traceless_anti_hermitian_part M j0 = algPart M := (C38_algebra_parts M j0).1

theorem idxOf_of_lt {ji : Nat} {o : Option Int} (h : idxOf ji o < ji) : o = some ((idxOf ji o : Nat) : Int) := by
  cases o with
  | none => exact absurd h (lt_irrefl _)
  | some v =>
    cases v with
    | ofNat n => rfl
    | negSucc n => exact absurd h (lt_irrefl _)

section
variable {g : Geo} (ok : g.Ok)
include ok

theorem stapleStep_eq (ji : Nat) (jq : Quad) (U : Nat → Nat → Quad) {r : Coords} (hr : IsRank g r) {X : Nat} (hX : X < g.locVol)
    {x : Coords} (hx : glbCoordOfLoclx g r X = some x) {mu nu : Dir} (hne : nu ≠ mu) (st : M3) :
    stapleStep (upT g r ji) (dwT g r ji) (mem g jq U r) X mu st nu = st + staplePair g (glob g U) x mu nu := by
  have hxb : x ∈ box g.L := mem_box.2 (glbCoord_lt ok r (by unfold allVol; omega) hx)
  have eX := mem_here ok jq U hr hX hx
  have eA := mem_up ok jq ji U hr hX hx mu
  have eB := mem_up ok jq ji U hr hX hx nu
  have eF := mem_dw ok jq ji U hr hX hx nu
  have eE : mem g jq U r (upT g r ji (dwT g r ji X nu) mu) = _ := mem_step2 ok jq ji U hr hX hx hne (d := -1) (e := 1) (.inr rfl) (.inl rfl)
  unfold stapleStep staplePair
  simp only [eX, eA, eB, eF, eE, pathProd, Matrix.mul_one]
  rw [tshift_comm g x hne 1 1, tshift_back ok (tshift_mem_box ok hxb mu 1) nu 1 (.inl rfl)]
  simp only [Matrix.mul_assoc, add_assoc]

theorem wStapleStep_eq (ji : Nat) (jq : Quad) (U : Nat → Nat → Quad) {r : Coords} (hr : IsRank g r) {X : Nat} (hX : X < g.locVol)
    {x : Coords} (hx : glbCoordOfLoclx g r X = some x) {mu nu : Dir} (hne : nu ≠ mu) (rho : ℝ) (st : M3) :
    wStapleStep (upT g r ji) (dwT g r ji) (mem g jq U r) rho X mu st nu = st + rho • staplePair g (glob g U) x mu nu := by
  have h := stapleStep_eq ok ji jq U hr hX hx hne 0
  rw [zero_add] at h
  rw [← h]
  unfold wStapleStep stapleStep
  simp only [zero_add, smul_add, add_assoc]

omit ok in
theorem perp_sum {M : Type} [AddCommMonoid M] (f : Dir → M) (mu : Dir) : (Geo.perpDirs mu).foldl (fun s nu => s + f nu) 0 = ∑ nu ∈ Finset.univ.filter (· ≠ mu), f nu := by
  rw [Finset.sum_filter, Fin.sum_univ_four]
  fin_cases mu <;> simp [Geo.perpDirs, add_assoc]

omit ok in
theorem perp_ne {mu nu : Dir} (h : nu ∈ Geo.perpDirs mu) : nu ≠ mu := by revert h; revert mu nu; decide

omit ok in
theorem foldl_congr' {α β : Type} (l : List β) (f f' : α → β → α) (h : ∀ a, ∀ b ∈ l, f a b = f' a b) (a : α) : l.foldl f a = l.foldl f' a := by
  induction l generalizing a with
  | nil => rfl
  | cons b l ih =>
    rw [List.foldl_cons, List.foldl_cons, h a b (List.mem_cons_self ..)]
    exact ih (fun a b hb => h a b (List.mem_cons_of_mem _ hb)) _

theorem staples_eq (ji : Nat) (jq : Quad) (U : Nat → Nat → Quad) {r : Coords} (hr : IsRank g r) {X : Nat} (hX : X < g.locVol)
    {x : Coords} (hx : glbCoordOfLoclx g r X = some x) (mu : Dir) :
    (Geo.perpDirs mu).foldl (stapleStep (upT g r ji) (dwT g r ji) (mem g jq U r) X mu) 0 = stapleSum g (glob g U) Finset.univ x mu := by
  rw [foldl_congr' _ _ (fun s nu => s + staplePair g (glob g U) x mu nu) fun st nu hnu => stapleStep_eq ok ji jq U hr hX hx (perp_ne hnu) st,
    perp_sum]
  rfl

theorem wStaples_eq (ji : Nat) (jq : Quad) (U : Nat → Nat → Quad) {r : Coords} (hr : IsRank g r) {X : Nat} (hX : X < g.locVol)
    {x : Coords} (hx : glbCoordOfLoclx g r X = some x) (rho : ℝ) (mu : Dir) :
    (Geo.perpDirs mu).foldl (wStapleStep (upT g r ji) (dwT g r ji) (mem g jq U r) rho X mu) 0 = rho • stapleSum g (glob g U) Finset.univ x mu := by
  rw [foldl_congr' _ _ (fun s nu => s + rho • staplePair g (glob g U) x mu nu) fun st nu hnu => wStapleStep_eq ok ji jq U hr hX hx (perp_ne hnu) rho st,
    perp_sum, ← Finset.smul_sum]
  rfl

/-! ### two steps on the even/odd tables -/

variable (eo : EoOk g)
include eo

theorem eoMem_step2 {V : Type} (jv : V) (ji : Nat) (F : Nat → Nat → Nat → V) {r : Coords} (hr : IsRank g r) {p e : Nat} (hp : p < 2)
    (he : e < g.locVol / 2) {l : Nat} (hl : loclxOfLoceo g r p e = some l) {c : Coords} (h : glbCoordOfLoclx g r l = some c) {mu nu : Dir}
    (hne : mu ≠ nu) {d s : Int} (hd : d = 1 ∨ d = -1) (hs : s = 1 ∨ s = -1) :
    eoMem g jv F r p ((loceoNeigh g r s (1 - p) nu ((loceoNeigh g r d p mu e).getD ji)).getD ji) = globEo g F (tshift g (tshift g c mu d) nu s) := by
  obtain ⟨l2, k1, k2, k3, k4, k5⟩ := C07_lx_of_eo g ok eo r p e hp (by omega)
  rw [hl] at k1; cases k1
  have hll := k5 he
  have hev := even_locVol ok eo
  rw [loceo_eq ok eo r k2] at k4
  have hle : l / 2 = e := Option.some.inj k4
  have hpc : p = coordParity c := by
    have := parity_of_coord eo r h; rw [k3] at this; exact Option.some.inj this
  obtain ⟨a1, a2⟩ := step1 ok r (allVol g) hll h mu hd
  obtain ⟨b1, b2⟩ := step2 ok r (allVol g) hll h hne hd hs
  have a3 := idxOf_of_lt (lt_of_lt_of_le a1 (by unfold allVol; omega))
  have b3 := idxOf_of_lt b1
  generalize idxOf (allVol g) (loclxNeigh g r d l mu) = j1 at *
  generalize idxOf (allVol g) (loclxNeigh g r s j1 nu) = j2 at *
  have hj1 : j1 < allVol g := by unfold allVol; omega
  have hp1 : loclxParity g r j1 = some (1 - p) := by
    rw [parity_of_coord eo r a2, parity_tshift ok eo c mu hd, hpc]
  have hp2 : loclxParity g r j2 = some p := by
    rw [parity_of_coord eo r b2, parity_tshift ok eo _ nu hs, parity_tshift ok eo c mu hd, hpc]
    congr 1; omega
  rw [loceoNeigh_eq ok eo r k2 k3 hle a3 hj1, Option.getD_some, loceoNeigh_eq ok eo r hj1 hp1 rfl b3 b1, Option.getD_some]
  have hq : j2 / 2 < allVol g / 2 := by
    have h7 : g.edgeVol = 4 * edgeVolq g := rfl
    have hb2 : g.bordVol = 2 * g.bordVolh := rfl
    unfold allVol at b1 ⊢; omega
  exact eoMem_eq ok eo jv F hr hp hq (loclx_eq ok eo r b1 hp2) b2

theorem wStapleStepEo_eq (ji : Nat) (jq : Quad) (U : Nat → Nat → Nat → Quad) {r : Coords} (hr : IsRank g r) {p A : Nat} (hp : p < 2)
    (hA : A < g.locVol / 2) {l : Nat} (hl : loclxOfLoceo g r p A = some l) {x : Coords} (hx : glbCoordOfLoclx g r l = some x) (mu nu : Dir)
    (rho : ℝ) (st : M3) :
    wStapleStepEo (eupT g r ji) (edwT g r ji) (eoMem g jq U r) rho p A mu st nu =
      st + if nu ≠ mu then rho • staplePair g (globEo g U) x mu nu else 0 := by
  by_cases hne : nu ≠ mu
  · have hxb : x ∈ box g.L := by
      have hal : l < allVol g := by
        obtain ⟨l2, k1, k2, k3, k4, k5⟩ := C07_lx_of_eo g ok eo r p A hp (by omega)
        rw [hl] at k1; cases k1; exact k2
      exact mem_box.2 (glbCoord_lt ok r hal hx)
    have eX := eoMem_here ok eo jq U hr hp hA hl hx
    have eA := eoMem_up ok eo jq ji U hr hp hA hl hx mu
    have eB := eoMem_up ok eo jq ji U hr hp hA hl hx nu
    have eF := eoMem_dw ok eo jq ji U hr hp hA hl hx nu
    have eE : eoMem g jq U r p (eupT g r ji (1 - p) (edwT g r ji p A nu) mu) = _ :=
      eoMem_step2 ok eo jq ji U hr hp hA hl hx hne (d := -1) (s := 1) (.inr rfl) (.inl rfl)
    unfold wStapleStepEo staplePair
    rw [if_pos hne, if_pos hne]
    simp only [eX, eA, eB, eF, eE, pathProd, Matrix.mul_one]
    rw [tshift_comm g x hne 1 1, tshift_back ok (tshift_mem_box ok hxb mu 1) nu 1 (.inl rfl)]
    simp only [Matrix.mul_assoc, add_assoc, smul_add]
  · unfold wStapleStepEo
    rw [if_neg hne, if_neg hne, add_zero]

theorem wStaplesEo_eq (ji : Nat) (jq : Quad) (U : Nat → Nat → Nat → Quad) {r : Coords} (hr : IsRank g r) {p A : Nat} (hp : p < 2)
    (hA : A < g.locVol / 2) {l : Nat} (hl : loclxOfLoceo g r p A = some l) {x : Coords} (hx : glbCoordOfLoclx g r l = some x) (rho : ℝ) (mu : Dir) :
    dirs.foldl (wStapleStepEo (eupT g r ji) (edwT g r ji) (eoMem g jq U r) rho p A mu) 0 = rho • stapleSum g (globEo g U) Finset.univ x mu := by
  rw [foldl_congr' _ _ (fun s nu => s + if nu ≠ mu then rho • staplePair g (globEo g U) x mu nu else 0)
    fun st nu _ => wStapleStepEo_eq ok eo ji jq U hr hp hA hl hx mu nu rho st]
  unfold stapleSum dirs
  rw [Finset.sum_filter, Finset.smul_sum, Fin.sum_univ_four]
  simp only [List.foldl_cons, List.foldl_nil, zero_add, smul_ite, smul_zero]

end
end
end Nissa.LSm
