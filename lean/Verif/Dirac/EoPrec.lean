import Verif.Dirac.PropsWilson2

/-! # Even/odd preconditioning of the twisted mass (clover) operator

Models `/repo/src/dirac_operators/tmD_eoprec/dirac_operator_tmD_eoprec_portable.hpp`, `..._portable.cpp`,
`/repo/src/dirac_operators/tmclovD_eoprec/dirac_operator_tmclovD_eoprec.hpp`, `..._portable.cpp`,
`/repo/src/inverters/twisted_mass/cg_invert_tmD_eoprec.cpp`, `/repo/src/inverters/twisted_clover/cg_invert_tmclovD_eoprec.cpp`.
Exact arithmetic.  The solver of the odd system is a parameter of the model of the frontends; `EoPrecCg.lean` plugs in the conjugate gradient. -/

set_option linter.all false

namespace Nissa.EoP
open Nissa.Lx Nissa.Sten Nissa.Su3f Nissa.Gauge Nissa.Gamma Nissa.StD Nissa.Wilson Matrix Complex

noncomputable section

/-- a half field: rank, index of the site -/
abbrev HFld := Nat → Nat → SpCol

/-- `tmn2Deo_or_tmn2Doe_eos` with output on the sites of parity `p`.
`/repo/src/dirac_operators/tmD_eoprec/dirac_operator_tmD_eoprec_portable.hpp:34-172` -/
def tmn2D (g : Geo) (ji : Nat) (jq : Quad) (jv : SpCol) (conf : Nat → Nat → Nat → Quad) (anis : Option ℝ) (p : Nat) (inp : HFld) (rk X : Nat) : SpCol :=
  let r := coordOfLx rk g.R
  let cf := eoMem g jq conf r
  let iv := hMem g jv inp r (1 - p)
  dirs.foldl (hopStep anis (cf p X) (fun mu => cf (1 - p) (edwT g r ji p X mu)) (fun mu => iv (eupT g r ji p X mu)) (fun mu => iv (edwT g r ji p X mu))) 0

/-- `tmDee_or_oo_eos`.  `/repo/src/dirac_operators/tmD_eoprec/dirac_operator_tmD_eoprec_portable.hpp:174-199` -/
def tmDee (kappa mu : ℝ) (inp : HFld) (rk X : Nat) : SpCol :=
  let z : ℂ := ⟨1 / (2 * kappa), mu⟩
  fun id ic => if (id : Nat) < 2 then inp rk X id ic * z else inp rk X id ic * star z

/-- `inv_tmDee_or_oo_eos`.  `/repo/src/dirac_operators/tmD_eoprec/dirac_operator_tmD_eoprec_portable.hpp:201-227` -/
def inv_tmDee (kappa mu : ℝ) (inp : HFld) (rk X : Nat) : SpCol :=
  let a := 1 / (2 * kappa)
  let b := mu
  let nrm := a * a + b * b
  let z : ℂ := ⟨a / nrm, -b / nrm⟩
  fun id ic => if (id : Nat) < 2 then inp rk X id ic * z else inp rk X id ic * star z

/-- `tmDkern_eoprec_eos_put_together_and_include_gamma5`: the new value of `out`.
`/repo/src/dirac_operators/tmD_eoprec/dirac_operator_tmD_eoprec_portable.cpp:17-33` -/
def put_together (out temp : HFld) (rk X : Nat) : SpCol := fun id ic =>
  if (id : Nat) < 2 then temp rk X id ic - out rk X id ic * (0.25 : ℝ) else - temp rk X id ic + out rk X id ic * (0.25 : ℝ)

/-- `tmDkern_eoprec_eos`; `out` is used as field on the even sites in the first step, `temp` as field on the odd sites in the last one.
`/repo/src/dirac_operators/tmD_eoprec/dirac_operator_tmD_eoprec_portable.cpp:35-51` -/
def tmDkern (g : Geo) (ji : Nat) (jq : Quad) (jv : SpCol) (conf : Nat → Nat → Nat → Quad) (kappa : ℝ) (anis : Option ℝ) (mu : ℝ) (inp : HFld) : HFld :=
  let out := tmn2D g ji jq jv conf anis 0 inp
  let temp := inv_tmDee kappa mu out
  let out := tmn2D g ji jq jv conf anis 1 temp
  let temp := tmDee kappa mu inp
  put_together out temp

/-- `tmDkern_eoprec_square_eos`.  `/repo/src/dirac_operators/tmD_eoprec/dirac_operator_tmD_eoprec_portable.cpp:53-65` -/
def tmDkern_square (g : Geo) (ji : Nat) (jq : Quad) (jv : SpCol) (conf : Nat → Nat → Nat → Quad) (kappa : ℝ) (anis : Option ℝ) (mu : ℝ) (inp : HFld) : HFld :=
  let temp1 := tmDkern g ji jq jv conf kappa anis (-mu) inp
  tmDkern g ji jq jv conf kappa anis mu temp1

/-- `apply_point_twisted_clover_term_to_halfspincolor`, with `c0`, `c1` the two elements of the clover term from `offset` and `i0`, `i1` the two colours.
`/repo/src/operations/su3_paths/clover_term.hpp:113-139` -/
def point_twisted (mass kappa : ℝ) (c0 c1 : M3) (i : Fin 2 → Col) : Fin 2 → Col :=
  let z : ℂ := ⟨1 / (2 * kappa), mass⟩
  ![z • i 0 + c0 *ᵥ i 0 + c1ᴴ *ᵥ i 1, z • i 1 + c1 *ᵥ i 0 - c0 *ᵥ i 1]

/-- `tmclovDee_or_oo_eos`.  `/repo/src/dirac_operators/tmclovD_eoprec/dirac_operator_tmclovD_eoprec_portable.cpp:17-43` -/
def tmclovDee (kappa : ℝ) (Cl : Nat → Nat → Clov) (dag : Bool) (mu : ℝ) (inp : HFld) (rk X : Nat) : SpCol :=
  let mu := if dag then -mu else mu
  let h := point_twisted mu kappa (Cl rk X 0) (Cl rk X 1) ![inp rk X 0, inp rk X 1]
  let l := point_twisted (-mu) kappa (Cl rk X 2) (Cl rk X 3) ![inp rk X 2, inp rk X 3]
  ![h 0, h 1, l 0, l 1]

/-- value of an `inv_clover_term_t`: `[high_low][id][ic][id][ic]` -/
abbrev InvClov := Fin 2 → Fin 2 → Fin 3 → Fin 2 → Fin 3 → ℂ

/-- `unsafe_halfspincolor_halfspincolor_times_halfspincolor`.  `/repo/src/new_types/su3_op.hpp:1747-1760` -/
def half_times (b : Fin 2 → Fin 3 → Fin 2 → Fin 3 → ℂ) (v : Fin 2 → Col) : Fin 2 → Col := fun i a => ∑ j, ∑ c, b i a j c * v j c

/-- `unsafe_halfspincolor_halfspincolor_dag_times_halfspincolor`.  `/repo/src/new_types/su3_op.hpp:1766-1779` -/
def half_dag_times (b : Fin 2 → Fin 3 → Fin 2 → Fin 3 → ℂ) (v : Fin 2 → Col) : Fin 2 → Col := fun i a => ∑ j, ∑ c, star (b j c i a) * v j c

/-- the two colours from `2*hl` -/
def half (hl : Fin 2) (v : SpCol) : Fin 2 → Col := if hl = 0 then ![v 0, v 1] else ![v 2, v 3]

/-- the two colours from `2*hl` replaced by `w` -/
def setHalf (hl : Fin 2) (out : SpCol) (w : Fin 2 → Col) : SpCol := if hl = 0 then ![w 0, w 1, out 2, out 3] else ![out 0, out 1, w 0, w 1]

/-- `inv_tmclovDee_or_oo_eos`; both halves of the output are written, in the order given by `dag`.
`/repo/src/dirac_operators/tmclovD_eoprec/dirac_operator_tmclovD_eoprec.hpp:24-49` -/
def inv_tmclovDee (invCl : Nat → Nat → InvClov) (dag : Bool) (inp : HFld) (rk X : Nat) : SpCol :=
  let high : Fin 2 := if dag then 1 else 0
  let low : Fin 2 := if dag then 0 else 1
  let out := setHalf high 0 (half_times (invCl rk X high) (half high (inp rk X)))
  setHalf low out (half_dag_times (invCl rk X low) (half low (inp rk X)))

/-- `tmclovDkern_eoprec_eos`.  `/repo/src/dirac_operators/tmclovD_eoprec/dirac_operator_tmclovD_eoprec_portable.cpp:45-68` -/
def tmclovDkern (g : Geo) (ji : Nat) (jq : Quad) (jv : SpCol) (conf : Nat → Nat → Nat → Quad) (kappa : ℝ) (anis : Option ℝ) (Cl_odd : Nat → Nat → Clov)
    (invCl_evn : Nat → Nat → InvClov) (dag : Bool) (mu : ℝ) (inp : HFld) : HFld :=
  let out := tmn2D g ji jq jv conf anis 0 inp
  let tmp := inv_tmclovDee invCl_evn dag out
  let out := tmn2D g ji jq jv conf anis 1 tmp
  let tmp := tmclovDee kappa Cl_odd dag mu inp
  put_together out tmp

/-- `tmclovDkern_eoprec_square_eos`.  `/repo/src/dirac_operators/tmclovD_eoprec/dirac_operator_tmclovD_eoprec_portable.cpp:70-84` -/
def tmclovDkern_square (g : Geo) (ji : Nat) (jq : Quad) (jv : SpCol) (conf : Nat → Nat → Nat → Quad) (kappa : ℝ) (anis : Option ℝ) (Cl_odd : Nat → Nat → Clov)
    (invCl_evn : Nat → Nat → InvClov) (mu : ℝ) (inp : HFld) : HFld :=
  let temp1 := tmclovDkern g ji jq jv conf kappa anis Cl_odd invCl_evn true mu inp
  tmclovDkern g ji jq jv conf kappa anis Cl_odd invCl_evn false mu temp1

/-- `inv_tmD_cg_eoprec_prepare_source`.  `/repo/src/inverters/twisted_mass/cg_invert_tmD_eoprec.cpp:36-57` -/
def prepare_source (g : Geo) (ji : Nat) (jq : Quad) (jv : SpCol) (conf : Nat → Nat → Nat → Quad) (anis : Option ℝ) (eq8a source_odd : HFld) (rk X : Nat) : SpCol :=
  let varphi := tmn2D g ji jq jv conf anis 1 eq8a
  fun id ic => if (id : Nat) < 2 then source_odd rk X id ic + varphi rk X id ic * (0.5 : ℝ) else - source_odd rk X id ic - varphi rk X id ic * (0.5 : ℝ)

/-- `inv_tmD_cg_eoprec_almost_reco_sol`.  `/repo/src/inverters/twisted_mass/cg_invert_tmD_eoprec.cpp:80-99` -/
def almost_reco_sol (g : Geo) (ji : Nat) (jq : Quad) (jv : SpCol) (conf : Nat → Nat → Nat → Quad) (anis : Option ℝ) (sol_odd source_evn : HFld) (rk X : Nat) : SpCol :=
  let varphi := tmn2D g ji jq jv conf anis 0 sol_odd
  fun id ic => source_evn rk X id ic + varphi rk X id ic * (0.5 : ℝ)

/-- `split_lx_vector_into_eo_parts` on all the ranks.  `/repo/src/geometry/geometry_mix.hpp:44-60` -/
def splitFld {V : Type} (g : Geo) (jv : V) (lx : Nat → Nat → V) (rk p e : Nat) : V := (splitEo g (coordOfLx rk g.R) (lx rk) p e).getD jv

/-- `paste_eo_parts_into_lx_vector` on all the ranks.  `/repo/src/geometry/geometry_mix.hpp:19-40` -/
def pasteFld {V : Type} (g : Geo) (jv : V) (f : Nat → Nat → Nat → V) (rk l : Nat) : V := (pasteEo g (coordOfLx rk g.R) (f rk) l).getD jv

/-- `get_evn_or_odd_part_of_lx_vector` on all the ranks.  `/repo/src/geometry/geometry_mix.hpp:63-80` -/
def partFld {V : Type} (g : Geo) (jv : V) (lx : Nat → Nat → V) (p rk e : Nat) : V := (getEoPart g (coordOfLx rk g.R) (lx rk) p e).getD jv

/-- the two parts of a field put together -/
def eoPair {V : Type} (evn odd : Nat → Nat → V) : Nat → Nat → Nat → V := fun rk p e => if p = 0 then evn rk e else odd rk e

/-- `inv_tmD_cg_eoprec_native`, with `solve` in place of `inv_tmDkern_eoprec_square_eos_cg` (which aborts or gives a field); returns the solution
together with `varphi` and `oddTemp`.  `/repo/src/inverters/twisted_mass/cg_invert_tmD_eoprec.cpp:102-148` -/
def inv_tmD_native {Cr : Type} (g : Geo) (ji : Nat) (jq : Quad) (jv : SpCol) (solve : (Nat → Nat → Nat → Quad) → HFld → Except Cr HFld) (conf_lx : Nat → Nat → Quad) (kappa : ℝ)
    (anis : Option ℝ) (mass : ℝ) (source_lx : Nat → Nat → SpCol) : Except Cr ((Nat → Nat → SpCol) × HFld × HFld) :=
  let source_eos := splitFld g jv source_lx
  let conf_eos := splitFld g jq conf_lx
  let evnTemp := inv_tmDee kappa mass (fun rk e => source_eos rk 0 e)
  let varphi := prepare_source g ji jq jv conf_eos anis evnTemp (fun rk e => source_eos rk 1 e)
  match solve conf_eos varphi with
  | .error c => .error c
  | .ok oddTemp =>
    let sol_odd := tmDkern g ji jq jv conf_eos kappa anis (-mass) oddTemp
    let evnTemp := almost_reco_sol g ji jq jv conf_eos anis sol_odd (fun rk e => source_eos rk 0 e)
    let sol_evn := inv_tmDee kappa mass evnTemp
    .ok (pasteFld g jv (eoPair sol_evn sol_odd), varphi, oddTemp)

/-- `inv_tmclovD_cg_eoprec_native` after the computation of the clover term and of its inverse.
`/repo/src/inverters/twisted_clover/cg_invert_tmclovD_eoprec.cpp:59-124` -/
def inv_tmclovD_native {Cr : Type} (g : Geo) (ji : Nat) (jq : Quad) (jv : SpCol) (jc : Clov) (jic : InvClov)
    (solve : (Nat → Nat → Nat → Quad) → (Nat → Nat → Clov) → (Nat → Nat → InvClov) → HFld → Except Cr HFld) (conf_lx : Nat → Nat → Quad) (kappa : ℝ)
    (anis : Option ℝ) (Cl_lx : Nat → Nat → Clov) (invCl_lx : Nat → Nat → InvClov) (mass : ℝ) (source_lx : Nat → Nat → SpCol) :
    Except Cr ((Nat → Nat → SpCol) × HFld × HFld) :=
  let source_eos := splitFld g jv source_lx
  let conf_eos := splitFld g jq conf_lx
  let Cl_odd := partFld g jc Cl_lx 1
  let invCl_evn := partFld g jic invCl_lx 0
  let evnTemp := inv_tmclovDee invCl_evn false (fun rk e => source_eos rk 0 e)
  let varphi := prepare_source g ji jq jv conf_eos anis evnTemp (fun rk e => source_eos rk 1 e)
  match solve conf_eos Cl_odd invCl_evn varphi with
  | .error c => .error c
  | .ok oddTemp =>
    let sol_odd := tmclovDkern g ji jq jv conf_eos kappa anis Cl_odd invCl_evn true mass oddTemp
    let evnTemp := almost_reco_sol g ji jq jv conf_eos anis sol_odd (fun rk e => source_eos rk 0 e)
    let sol_evn := inv_tmclovDee invCl_evn false evnTemp
    .ok (pasteFld g jv (eoPair sol_evn sol_odd), varphi, oddTemp)

/-! ### Specification, on the global lattice -/

/-- the (non hermitian) Dirac operator: `A` is its site-diagonal part, `-wilson/2` the hopping -/
def Dspec (g : Geo) (anis : Option ℝ) (U : Coords → Quad) (A : Coords → SpCol → SpCol) (x : Coords → SpCol) (c : Coords) : SpCol :=
  A c (x c) - (1 / 2 : ℂ) • wilson g anis U x c

/-- the twisted mass diagonal part `k + i mu gamma5 + C` -/
def diagSpec (k mu : ℝ) (C : SpCol → SpCol) (v : SpCol) : SpCol := (k : ℂ) • v + ((mu : ℂ) * I) • spinMul (Γ 5) v + C v

/-- `gamma5` times the Schur complement `A_oo - W B_ee W/4` -/
def Kspec (g : Geo) (anis : Option ℝ) (U : Coords → Quad) (A B : Coords → SpCol → SpCol) (x : Coords → SpCol) (c : Coords) : SpCol :=
  spinMul (Γ 5) (A c (x c) - (1 / 4 : ℂ) • wilson g anis U (fun d => B d (wilson g anis U x d)) c)

/-- the inverse clover term as local operator: the first block as stored, the second one daggered (or the opposite for the adjoint) -/
def invClSpec (dag : Bool) (b : InvClov) (v : SpCol) : SpCol :=
  if dag then ![half_dag_times (b 0) ![v 0, v 1] 0, half_dag_times (b 0) ![v 0, v 1] 1, half_times (b 1) ![v 2, v 3] 0, half_times (b 1) ![v 2, v 3] 1]
  else ![half_times (b 0) ![v 0, v 1] 0, half_times (b 0) ![v 0, v 1] 1, half_dag_times (b 1) ![v 2, v 3] 0, half_dag_times (b 1) ![v 2, v 3] 1]

end

end Nissa.EoP
