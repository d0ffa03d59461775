import Verif.Rational.HighPrec

/-!
# Generation and adaptation of the rational approximations

Model of `generate_approx`, `generate_approx_of_maxerr` (remez_algorithm.cpp, remez_algorithm.hpp),
of `rat_approx_t` (new_types/rat_approx.hpp), and of `set_expansions`
(hmc/multipseudo/set_expansions.cpp).  Numbers are real; the function approximated `f` is
`func_to_approx` (see `HighPrec.lean`), the root finder `newton` is `root_find_Newton`.
-/

set_option linter.all false

namespace Nissa.Remez

/-- `rat_approx_t` (the name is not modelled): rat_approx.hpp:16-36.  `degree` is the common length of
`poles` and `weights`. -/
structure RatApprox where
  minimum : ℝ
  maximum : ℝ
  maxerr : ℝ
  cons : ℝ
  num : Int
  den : Int
  degree : Nat
  poles : Nat → ℝ
  weights : Nat → ℝ

/-- State of the finder before the loop: remez_algorithm.hpp:249-265. -/
noncomputable def startFinder (d : Nat) (lo hi : ℝ) : Finder ℝ :=
  { coeff := fun _ => 0
    zero := chebZero (2 * d + 1) lo hi
    xmax := chebMax (2 * d + 1) lo hi
    step := set_step (2 * d + 2) lo (chebZero (2 * d + 1) lo hi) fun _ => 0
    eclose := 0
    farther := 0
    spread := 10 ^ 37
    delta := 1 / 4 }

/-- `rat_approx_finder_t::generate_approx`: remez_algorithm.hpp:222-325.  Result: the error, and
constant, weights and poles when converged. -/
noncomputable def finderGenerate (f : ℝ → ℝ) (newton : (Nat → ℝ) → Nat → Option ℝ) (fuel d : Nat)
    (lo hi target toll : ℝ) : Res (ℝ × Option (ℝ × (Nat → ℝ) × (Nat → ℝ))) :=
  match remezLoop d f lo hi target toll fuel 0 (startFinder d lo hi) with
  | .crash => .crash
  | .running => .running
  | .done s =>
    if (0 < target ∧ s.farther ≤ target) ∨ (¬ 0 < target ∧ s.spread ≤ toll) then
      match root_find newton d s.coeff with
      | none => .crash
      | some (roots, poles, cons) =>
        .done (s.farther, some (cons, get_partial_fraction_expansion d roots poles cons))
    else .done (s.farther, none)

/-- The loop over the degree of `generate_approx_of_maxerr`: remez_algorithm.cpp:470-499, with the
wrapper `generate_approx` (remez_algorithm.cpp:404-437) inlined. -/
noncomputable def degreeLoop (f : ℝ → ℝ) (newton : (Nat → ℝ) → Nat → Option ℝ) (fuel : Nat)
    (lo hi maxerr : ℝ) (num den : Int) : Nat → Nat → Res RatApprox
  | 0, _ => .running
  | left + 1, degree =>
    match finderGenerate f newton fuel degree lo hi maxerr (1 / 100) with
    | .crash => .crash
    | .running => .running
    | .done (err, out) =>
      if err ≤ maxerr then
        .done { minimum := lo, maximum := hi, maxerr := maxerr, num := num, den := den
                cons := (out.getD (0, fun _ => 0, fun _ => 0)).1
                degree := degree
                poles := (out.getD (0, fun _ => 0, fun _ => 0)).2.2
                weights := (out.getD (0, fun _ => 0, fun _ => 0)).2.1 }
      else degreeLoop f newton fuel lo hi maxerr num den left (degree + 1)

/-- `generate_approx_of_maxerr`: remez_algorithm.cpp:439-502. -/
noncomputable def generate_approx_of_maxerr (f : ℝ → ℝ) (newton : (Nat → ℝ) → Nat → Option ℝ)
    (fuel left : Nat) (lo hi maxerr : ℝ) (num den : Int) : Res RatApprox :=
  if num = den then .crash
  else if num = -den then
    .done { minimum := lo, maximum := hi, maxerr := maxerr, num := num, den := den, cons := 0,
            degree := 1, poles := fun _ => 0, weights := fun _ => 1 }
  else degreeLoop f newton fuel lo hi maxerr num den left 1

/-! ### `set_expansions` -/

/-- `enl_gen`: set_expansions.cpp:20-21. -/
noncomputable def enl_gen : ℝ := 2 ^ (1 / 4 : ℝ)

/-- `check_approx_validity`: set_expansions.cpp:109-179. -/
def check_approx_validity (a : RatApprox) (eig_min eig_max expo maxerr : ℝ) : Prop :=
  a.degree ≠ 0 ∧
  |expo - (a.num : ℝ) / a.den| < 1 / 10 ^ 14 ∧
  eig_max / eig_min ≤ a.maximum / a.minimum ∧
  a.maximum / a.minimum / (eig_max / eig_min) < enl_gen ^ 4 ∧
  (maxerr / 2 ≤ a.maxerr ∧ a.maxerr ≤ maxerr * 2)

/-- Scaling of a stored approximation: set_expansions.cpp:268-281. -/
noncomputable def rescale (a : RatApprox) (eig_min eig_max expo : ℝ) : RatApprox :=
  let scale := Real.sqrt (eig_max * eig_min) / Real.sqrt (a.minimum * a.maximum)
  let scale_extra := scale ^ expo
  { a with
    minimum := a.minimum * scale
    maximum := a.maximum * scale
    cons := a.cons * scale_extra
    poles := fun i => a.poles i * scale
    weights := fun i => a.weights i * (scale * scale_extra) }

/-- `ferm_discretiz::name_t`: quark_pars.hpp:18. -/
inductive Discretiz where
  | ROOT_STAG
  | ROOT_TM_CLOV
  | OVERLAP
deriving DecidableEq

/-- Value of the enumerator: quark_pars.hpp:18. -/
def Discretiz.toInt : Discretiz → Int
  | .ROOT_STAG => 0
  | .ROOT_TM_CLOV => 1
  | .OVERLAP => 2

/-- `root_needed`: quark_pars.hpp:103-121. -/
def root_needed : Discretiz → Int
  | .ROOT_STAG => 4
  | .ROOT_TM_CLOV => 2
  | .OVERLAP => 1

/-- One quark with its number of pseudofermions, and the largest eigenvalue `max_eigenval` finds for
it (not modelled: the power method of set_expansions.cpp:23-107). -/
structure FlavSpec where
  deg : Int
  mass : ℝ
  discretiz : Discretiz
  npf : Int
  maxEig : ℝ

/-- `eig_min`: set_expansions.cpp:221-233.  (The CRASH on an overlap quark is not modelled.) -/
noncomputable def eigMin (q : FlavSpec) : ℝ := q.mass ^ 2

/-- `eig_max`: set_expansions.cpp:235-240.  The condition of the code is the enumerator itself,
`ROOT_TM_CLOV`, not a comparison with it. -/
noncomputable def eigMax (q : FlavSpec) : ℝ :=
  if Discretiz.ROOT_TM_CLOV.toInt ≠ 0 ∧ ¬ (q.deg ≠ q.npf * root_needed q.discretiz) then
    eigMin q * (11 / 10)
  else q.maxEig

/-- `extra_fact`: set_expansions.cpp:243. -/
def extra_fact (q : FlavSpec) (i : Nat) : Int :=
  if i = 0 then 2 * root_needed q.discretiz else -root_needed q.discretiz

/-- `maxerr`: set_expansions.cpp:244. -/
noncomputable def errOf (pf_action_residue md_residue : ℝ) (i : Nat) : ℝ :=
  if i = 2 then Real.sqrt md_residue else Real.sqrt pf_action_residue

/-- What has to be generated anew. -/
structure Todo where
  index : Nat
  min : ℝ
  max : ℝ
  maxerr : ℝ

open Classical in
/-- Treatment of approximation `i` of flavour `iflav`: set_expansions.cpp:245-291. -/
noncomputable def prepareOne (pfr mdr : ℝ) (q : FlavSpec) (iflav i : Nat)
    (s : (Nat → RatApprox) × List Todo) : (Nat → RatApprox) × List Todo :=
  let num := q.deg
  let den := extra_fact q i * q.npf
  let a := s.1 (i + 3 * iflav)
  let a' := { a with num := num, den := den }
  if check_approx_validity a (eigMin q) (eigMax q) ((num : ℝ) / den) (errOf pfr mdr i) then
    (Function.update s.1 (i + 3 * iflav)
      (if num = -den then a' else rescale a' (eigMin q) (eigMax q) ((num : ℝ) / den)), s.2)
  else
    (Function.update s.1 (i + 3 * iflav) a',
      s.2 ++ [⟨i + 3 * iflav, eigMin q / enl_gen, eigMax q * enl_gen, errOf pfr mdr i⟩])

/-- The loops over flavours and approximations: set_expansions.cpp:210-293. -/
noncomputable def prepareAll (pfr mdr : ℝ) (q : Nat → FlavSpec) (nflavs : Nat)
    (a : Nat → RatApprox) : (Nat → RatApprox) × List Todo :=
  up nflavs (fun iflav s => up 3 (fun i s => prepareOne pfr mdr (q iflav) iflav i s) s) (a, [])

/-- `rank_recreating[ito]`: set_expansions.cpp:295-303. -/
def rankRecreating (nto nranks ito : Nat) : Nat := ito / ((nto + nranks - 1) / nranks)

/-- Generation of the missing ones on one rank: set_expansions.cpp:305-312.  `gen` stands for
`generate_approx_of_maxerr`. -/
noncomputable def recreate (gen : ℝ → ℝ → ℝ → Int → Int → RatApprox) (nranks rank : Nat)
    (todo : List Todo) (a : Nat → RatApprox) : Nat → RatApprox :=
  up todo.length (fun ito a =>
    if rankRecreating todo.length nranks ito = rank then
      match todo[ito]? with
      | some t => Function.update a t.index
          (gen t.min t.max t.maxerr (a t.index).num (a t.index).den)
      | none => a
    else a) a

/-- Collection from the other ranks: set_expansions.cpp:315-321 and mpi_routines.cpp:211-232.  The
state is the list of approximations of each rank. -/
def collect (nranks : Nat) (todo : List Todo) (a : Nat → Nat → RatApprox) : Nat → Nat → RatApprox :=
  up todo.length (fun ito a =>
    match todo[ito]? with
    | some t => fun r => Function.update (a r) t.index
        (a (rankRecreating todo.length nranks ito) t.index)
    | none => a) a

/-- `set_expansions` on all the ranks: set_expansions.cpp:181-328. -/
noncomputable def set_expansions (gen : ℝ → ℝ → ℝ → Int → Int → RatApprox) (nranks : Nat)
    (pfr mdr : ℝ) (q : Nat → FlavSpec) (nflavs : Nat) (a : Nat → RatApprox) :
    Nat → Nat → RatApprox :=
  let p := prepareAll pfr mdr q nflavs a
  collect nranks p.2 fun rank => recreate gen nranks rank p.2 p.1

end Nissa.Remez
