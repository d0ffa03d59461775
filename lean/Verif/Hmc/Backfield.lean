import Verif.Stencil.Lattice
import Mathlib.Analysis.SpecialFunctions.Trigonometric.Basic
import Mathlib.Analysis.SpecialFunctions.Complex.Circle

/-! # The background electromagnetic field, chemical potential, staggered phases

Models `/repo/src/hmc/backfield.cpp` and the staggered phases of `/repo/src/geometry/geometry_lx.cpp:703-730`.
Real arithmetic is exact, `cos`, `sin` and `M_PI` are the mathematical ones; the integer arithmetic of the arguments of the
exponentials is unbounded. -/

set_option linter.all false

namespace Nissa.Back
open Nissa.Lx Nissa.Sten Nissa.Gauge Nissa.Su3f Matrix

noncomputable section

/-- value of a `quad_u1` -/
abbrev Quad1 := Dir → ℂ

/-- `{cos(a),sin(a)}` -/
def cis (a : ℝ) : ℂ := ⟨Real.cos a, Real.sin a⟩

/-- `glbCoordOfLoclx[loclx_of_loceo[par][ieo]]`; `ji`, `jc` are what is read where the tables are not filled.
`/repo/src/hmc/backfield.cpp:71-72,143` -/
def eoCoord (g : Geo) (ji : Nat) (jc : Coords) (rk p e : Nat) : Coords :=
  (glbCoordOfLoclx g (coordOfLx rk g.R) ((loclxOfLoceo g (coordOfLx rk g.R) p e).getD ji)).getD jc

/-- `init_backfield_to_id`.  `/repo/src/hmc/backfield.cpp:19-35` -/
def init_backfield_to_id : Nat → Nat → Nat → Quad1 := fun _ _ _ _ => ⟨1, 0⟩

/-- `add_im_pot_to_backfield`, `potential` is `quark_content.im_pot`.  `/repo/src/hmc/backfield.cpp:38-58` -/
def add_im_pot_to_backfield (g : Geo) (S : Nat → Nat → Nat → Quad1) (potential : ℝ) : Nat → Nat → Nat → Quad1 :=
  let im_pot := potential * Real.pi / g.L 0
  fun rk p e => Function.update (S rk p e) 0 (S rk p e 0 * cis im_pot)

/-- `get_args_of_null_quantization`.  `/repo/src/hmc/backfield.cpp:63-72` -/
def argsNull (g : Geo) (c : Coords) (mu nu : Dir) : Dir → Int := fun _ => 0

/-- coordinate moved to the interval centred around zero: `if(x>=L/2) x-=L`.  `/repo/src/hmc/backfield.cpp:86-89` -/
def centred (L x : Nat) : Int := if L / 2 ≤ x then (x : Int) - L else x

/-- `get_args_of_one_over_L2_quantization` at the site of global coordinates `c`.  `/repo/src/hmc/backfield.cpp:75-96` -/
def argsOneOverL2 (g : Geo) (c : Coords) (mu nu : Dir) : Dir → Int :=
  let xmu := centred (g.L mu) (c mu)
  let xnu := centred (g.L nu) (c nu)
  let phase : Dir → Int := fun _ => 0
  let phase := if xmu = ((g.L mu / 2 : Nat) : Int) - 1 then Function.update phase mu (-xnu * g.L mu) else phase
  Function.update phase nu xmu

/-- `get_args_of_half_half_quantization` at the site of global coordinates `c`.  `/repo/src/hmc/backfield.cpp:99-117` -/
def argsHalfHalf (g : Geo) (c : Coords) (mu nu : Dir) : Dir → Int :=
  let xmu : Int := if c mu ≤ g.L mu / 2 then (c mu : Int) - (g.L mu / 4 : Nat) else ((3 * g.L mu / 4 : Nat) : Int) - c mu
  Function.update (fun _ => 0) nu xmu

/-- the table `get_args_of_quantization`; `none` for an index out of its bounds.  `/repo/src/hmc/backfield.cpp:119-120` -/
def argsOfQuantization (q : Int) : Option (Geo → Coords → Dir → Dir → Dir → Int) :=
  if q = 0 then some argsNull else if q = 1 then some argsOneOverL2 else if q = 2 then some argsHalfHalf else none

/-- `phase=2*em_str*charge*M_PI/glbSize[mu]/glbSize[nu]`.  `/repo/src/hmc/backfield.cpp:131` -/
def emPhase (g : Geo) (charge em_str : ℝ) (mu nu : Dir) : ℝ := 2 * em_str * charge * Real.pi / g.L mu / g.L nu

/-- `add_em_field_to_backfield`, one component; `none`: the program aborts (half-half quantization on a size not multiple of
four) or has no defined behaviour (unknown quantization).  `/repo/src/hmc/backfield.cpp:124-157` -/
def add_em_component (g : Geo) (ji : Nat) (jc : Coords) (S : Nat → Nat → Nat → Quad1) (charge em_str : ℝ) (q : Int) (mu nu : Dir) :
    Option (Nat → Nat → Nat → Quad1) :=
  let phase := emPhase g charge em_str mu nu
  if q = 2 ∧ g.L mu % 4 ≠ 0 then none else
  (argsOfQuantization q).map fun args => fun rk p e =>
    let arg := args g (eoCoord g ji jc rk p e) mu nu
    fun rho => S rk p e rho * cis (phase * arg rho)

/-- `em_field_pars_t`.  `/repo/src/hmc/backfield.hpp:16-63` -/
structure EmPars where
  flag : Int
  E : Fin 3 → ℝ
  B : Fin 3 → ℝ

/-- the six components in the order they are added, with the plane of each.  `/repo/src/hmc/backfield.cpp:170-175` -/
def components (p : EmPars) : List (ℝ × Dir × Dir) :=
  [(p.E 0, 0, 1), (p.E 1, 0, 2), (p.E 2, 0, 3), (p.B 0, 2, 3), (p.B 1, 3, 1), (p.B 2, 1, 2)]

open Classical in
/-- `add_em_field_to_backfield`, the six components: those whose strength exceeds 1e-10.  `/repo/src/hmc/backfield.cpp:160-177` -/
def add_em_field_to_backfield (g : Geo) (ji : Nat) (jc : Coords) (S : Nat → Nat → Nat → Quad1) (charge : ℝ) (p : EmPars) :
    Option (Nat → Nat → Nat → Quad1) :=
  if p.flag ≠ 0 then
    (components p).foldlM (fun S c => if |c.1| > 1e-10 then add_em_component g ji jc S charge c.1 p.flag c.2.1 c.2.2 else some S) S
  else some S

/-- `add_antiperiodic_condition_to_backfield`.  `/repo/src/hmc/backfield.cpp:197-229` -/
def add_antiperiodic_condition_to_backfield (g : Geo) (S : Nat → Nat → Nat → Quad1) (mu : Dir) : Nat → Nat → Nat → Quad1 :=
  fun rk p e => let arg := -1 * Real.pi / g.L mu; Function.update (S rk p e) mu (S rk p e mu * cis arg)

/-- `theory_pars_t::init_backfield`, for one flavour.  `/repo/src/hmc/backfield.cpp:344-356` -/
def init_backfield (g : Geo) (ji : Nat) (jc : Coords) (im_pot charge : ℝ) (p : EmPars) : Option (Nat → Nat → Nat → Quad1) := do
  let S := add_im_pot_to_backfield g init_backfield_to_id im_pot
  let S ← add_em_field_to_backfield g ji jc S charge p
  return add_antiperiodic_condition_to_backfield g S 0

/-- `getStagphaseOfLx`, all directions; `junk` is the content of the array before.  `/repo/src/geometry/geometry_lx.cpp:703-713` -/
def getStagphaseOfLx (junk : Dir → Int) (c : Coords) : Dir → Int :=
  [1, 2, 3].foldl (fun (ph : Dir → Int) (mu : Dir) => Function.update ph mu (ph (mu - 1) * (1 - 2 * ((c (mu - 1) % 2 : Nat) : Int))))
    (Function.update junk 0 1)

/-- `getStagphaseOfLx`, one direction: `for(nu=1;nu<=mu;nu++) ph*=...`.  `/repo/src/geometry/geometry_lx.cpp:716-726` -/
def getStagphaseOfLxDir (c : Coords) (mu : Dir) : Int :=
  (([1, 2, 3] : List Dir).filter (fun nu => nu ≤ mu)).foldl (fun (ph : Int) (nu : Dir) => ph * (1 - 2 * ((c (nu - 1) % 2 : Nat) : Int))) 1

/-- `add_or_rem_stagphases_to_conf`.  `/repo/src/hmc/backfield.cpp:232-247` -/
def add_or_rem_stagphases_to_conf (g : Geo) (ji : Nat) (jc : Coords) (junk : Dir → Int) (U : Nat → Nat → Nat → Quad) :
    Nat → Nat → Nat → Quad := fun rk p e =>
  let ph := getStagphaseOfLx junk (eoCoord g ji jc rk p e)
  fun mu => ((ph mu : ℝ) : ℂ) • U rk p e mu

/-- the factor put on the link: `f=u1` or its conjugate, times the staggered phase if required.
`/repo/src/hmc/backfield.cpp:262-281` -/
def linkFactor (junk : Dir → Int) (add_rem with_without : Bool) (c : Coords) (u : Quad1) (mu : Dir) : ℂ :=
  let f := if add_rem = false then u mu else (starRingEnd ℂ) (u mu)
  if with_without = false then f * (((getStagphaseOfLx junk c) mu : ℝ) : ℂ) else f

/-- `add_or_rem_backfield_with_or_without_stagphases_to_conf`, even/odd configuration (`false` is `0`: add, with).
`/repo/src/hmc/backfield.cpp:250-285` -/
def add_or_rem_backfield_eo (g : Geo) (ji : Nat) (jc : Coords) (junk : Dir → Int) (U : Nat → Nat → Nat → Quad) (add_rem : Bool)
    (u1 : Nat → Nat → Nat → Quad1) (with_without : Bool) : Nat → Nat → Nat → Quad := fun rk p e mu =>
  linkFactor junk add_rem with_without (eoCoord g ji jc rk p e) (u1 rk p e) mu • U rk p e mu

/-- `add_or_rem_backfield_with_or_without_stagphases_to_conf`, full configuration: for all the parities and half indices, the
site `loclx_of_loceo[par][ieo]` is multiplied in place.  `/repo/src/hmc/backfield.cpp:288-325` -/
def add_or_rem_backfield_lx (g : Geo) (ji : Nat) (jc : Coords) (junk : Dir → Int) (U : Nat → Nat → Quad) (add_rem : Bool)
    (u1 : Nat → Nat → Nat → Quad1) (with_without : Bool) : Nat → Nat → Quad := fun rk =>
  ([0, 1].flatMap (fun p => (List.range (locVolh g)).map (fun e => (p, e)))).foldl
    (fun (conf : Nat → Quad) pe =>
      let ilx := (loclxOfLoceo g (coordOfLx rk g.R) pe.1 pe.2).getD ji
      Function.update conf ilx (fun mu =>
        linkFactor junk add_rem with_without ((glbCoordOfLoclx g (coordOfLx rk g.R) ilx).getD jc) (u1 rk pe.1 pe.2) mu • conf ilx mu)) (U rk)

/-! ### Specification, on the global lattice -/

/-- the product of the phases around a square -/
def square1 (g : Geo) (u : Coords → Quad1) (x : Coords) (mu nu : Dir) : ℂ :=
  u x mu * u (tshift g x mu 1) nu * (starRingEnd ℂ) (u (tshift g x nu 1) mu) * (starRingEnd ℂ) (u x nu)

/-- product of the phases of a line winding the lattice along `mu` through `x` -/
def line1 (g : Geo) (u : Coords → Quad1) (x : Coords) (mu : Dir) : ℂ :=
  ∏ t ∈ Finset.range (g.L mu), u (Function.update x mu t) mu

open Classical in
/-- the field strength requested by the user: antisymmetric tensor with `F_{0k}=E_k` and `F_{ij}=eps_{ijk} B_k`, where the strengths
not exceeding the threshold, or all of them when the flag is zero, count as zero -/
def strength (p : EmPars) (mu nu : Dir) : ℝ :=
  let th (s : ℝ) : ℝ := if p.flag ≠ 0 ∧ |s| > 1e-10 then s else 0
  (![![0, th (p.E 0), th (p.E 1), th (p.E 2)], ![-th (p.E 0), 0, th (p.B 2), -th (p.B 1)],
     ![-th (p.E 1), -th (p.B 2), 0, th (p.B 0)], ![-th (p.E 2), th (p.B 1), -th (p.B 0), 0]] : Fin 4 → Fin 4 → ℝ) mu nu

end

end Nissa.Back
