import Verif.Rational.Remez
import Mathlib.Data.Rat.Cast.Order

/-!
# The rational-approximation finder

Model of `rat_approx_finder_t` (`src/operations/remez/remez_algorithm.hpp`, `remez_algorithm.cpp`).
The function to approximate is a parameter `f` (for its own computation see `HighPrec.lean`); the
conversions `get_d()` to double precision in the tests are read as the identity.
-/

set_option linter.all false

namespace Nissa.Remez

variable {K : Type} [Field K] [LinearOrder K]

/-! ### The system for the coefficients -/

/-- Powers `1,z,z²,…` of the first part of a row, with the running power:
remez_algorithm.hpp:61-67. -/
def rowNum (d : Nat) (z : K) (row : Nat → K) : (Nat → K) × K :=
  up (d + 1) (fun j s => (put s.1 j s.2, s.2 * z)) (row, 1)

/-- Second part of a row: remez_algorithm.hpp:68-73. -/
def rowDen (d : Nat) (z y : K) (row : Nat → K) : (Nat → K) × K :=
  up d (fun j s => (put s.1 (d + 1 + j) (-y * s.2), s.2 * z)) (row, 1)

/-- `set_linear_system`, matrix: remez_algorithm.hpp:53-76. -/
def sysRow (d : Nat) (f : K → K) (zero : Nat → K) (i : Nat) : (Nat → K) × K :=
  rowDen d (zero i) (f (zero i)) (rowNum d (zero i) fun _ => 0).1

def sysMat (d : Nat) (f : K → K) (zero : Nat → K) : Nat → Nat → K := fun i => (sysRow d f zero i).1

/-- `set_linear_system`, right-hand side: remez_algorithm.hpp:74. -/
def sysVec (d : Nat) (f : K → K) (zero : Nat → K) : Nat → K :=
  fun i => (sysRow d f zero i).2 * f (zero i)

/-- Numerator of `compute_num_den_approx`: remez_algorithm.hpp:205-207. -/
def numApprox (d : Nat) (c : Nat → K) (x : K) : K := down d (fun i yn => x * yn + c i) (c d)

/-- Denominator of `compute_num_den_approx`: remez_algorithm.hpp:208-210. -/
def denApprox (d : Nat) (c : Nat → K) (x : K) : K :=
  down (d - 1) (fun t yd => x * yd + c (d + 1 + t)) (x + c (2 * d))

/-- `compute_approx`: remez_algorithm.hpp:213-219. -/
def compute_approx (d : Nat) (c : Nat → K) (x : K) : K := numApprox d c x / denApprox d c x

/-- `get_err`: remez_algorithm.hpp:183-198. -/
def get_err (d : Nat) (f : K → K) (c : Nat → K) (x : K) : K :=
  if f x ≠ 0 then (f x - compute_approx d c x) / f x else f x - compute_approx d c x

/-- `get_abs_err`: remez_algorithm.hpp:178-181. -/
def get_abs_err (d : Nat) (f : K → K) (c : Nat → K) (x : K) : K := |get_err d f c x|

/-! ### Moving the extrema and the zeros -/

/-- What the finder carries from one iteration to the next: remez_algorithm.hpp:23-46. -/
structure Finder (K : Type) where
  coeff : Nat → K
  zero : Nat → K
  xmax : Nat → K
  step : Nat → K
  eclose : K
  farther : K
  spread : K
  delta : K

/-- The loop moving one extremum until the barrier or a decreasing error, `left` further moves
allowed: remez_algorithm.cpp:271-290. -/
def walk (err : K → K) (lo hi q : K) : Nat → K → K → K → K → K × K
  | 0, xm, ym, _, _ => (xm, ym)
  | left + 1, xm, ym, xn, yn =>
    if yn < ym then (xm, ym)
    else if xn + q = xn ∨ ¬ lo < xn + q ∨ ¬ xn + q < hi then (xn, yn)
    else walk err lo hi q left xn yn (xn + q) (err (xn + q))

/-- One extremum: first trial step and walk, remez_algorithm.cpp:249-290.  Result: the new position
and the error there. -/
def moveMax (err : K → K) (lo hi xm q : K) : K × K :=
  if xm + q < lo ∨ ¬ xm + q < hi then walk err lo hi (-q) 9 xm (err xm) xm (err xm)
  else if err (xm + q) < err xm then walk err lo hi (-q) 9 xm (err xm) xm (err xm)
  else walk err lo hi q 9 xm (err xm) (xm + q) (err (xm + q))

/-- State of the loop over the extrema. -/
structure MoveState (K : Type) where
  xmax : Nat → K
  yy : Nat → K
  eclose : K
  farther : K
  zero0 : K

/-- Body of the loop over the extrema (`N` is `nmax_err_points`): remez_algorithm.cpp:243-300. -/
def moveOne (err : K → K) (N : Nat) (maximum : K) (zero step : Nat → K) (i : Nat) (s : MoveState K) :
    MoveState K :=
  let zero1 := if i = N - 1 then maximum else zero i
  let m := moveMax err s.zero0 zero1 (s.xmax i) (step i)
  { xmax := put s.xmax i m.1
    yy := put s.yy i m.2
    eclose := if m.2 < s.eclose then m.2 else s.eclose
    farther := if s.farther < m.2 then m.2 else s.farther
    zero0 := zero1 }

/-- The loop over the extrema: remez_algorithm.cpp:236-300. -/
def moveAll (err : K → K) (N : Nat) (minimum maximum : K) (zero xmax step : Nat → K) : MoveState K :=
  up N (moveOne err N maximum zero step)
    { xmax := xmax, yy := fun _ => 0, eclose := 10 ^ 30, farther := 0, zero0 := minimum }

/-- Size of the new step number `i`: remez_algorithm.cpp:317-323. -/
def newStepSize (yy xmax : Nat → K) (delta : K) (i : Nat) : K :=
  let q := if yy (i + 1) ≠ 0 then yy i / yy (i + 1) - 1 else 1 / 16
  let q := if 1 / 4 < q then 1 / 4 else q
  q * (xmax (i + 1) - xmax i) * delta

/-- New position of one zero: remez_algorithm.cpp:330-337. -/
def newZero (minimum maximum xl xr z st : K) : K :=
  if minimum < z - st then
    if z - st < maximum then
      let xm := if ¬ xl < z - st then 1 / 2 * (xl + z) else z - st
      if ¬ xm < xr then 1 / 2 * (xr + z) else xm
    else z
  else z

/-- `new_step`: remez_algorithm.cpp:232-339 (`N` is `nmax_err_points`). -/
def new_step (err : K → K) (N : Nat) (minimum maximum : K) (s : Finder K) : Finder K :=
  let m := moveAll err N minimum maximum s.zero s.xmax s.step
  let q := if m.eclose ≠ 0 then m.farther / m.eclose - 1 else m.farther
  let delta := if ¬ q < s.spread then s.delta * (1 / 2) else s.delta
  let step1 := up (N - 1) (fun i st => put st i (newStepSize m.yy m.xmax delta i)) s.step
  let step := put step1 (N - 1) (step1 (N - 2))
  { coeff := s.coeff
    zero := up (N - 1) (fun i z =>
      put z i (newZero minimum maximum (m.xmax i) (m.xmax (i + 1)) (z i) (step i))) s.zero
    xmax := m.xmax
    step := step
    eclose := m.eclose
    farther := m.farther
    spread := q
    delta := delta }

/-- `set_step`: remez_algorithm.cpp:224-230. -/
def set_step (N : Nat) (minimum : K) (zero step : Nat → K) : Nat → K :=
  up (N - 1) (fun t st => put st (t + 1) (zero (t + 1) - zero t)) (put step 0 (zero 0 - minimum))

/-- How a call can end: CRASH, still running after the steps granted, or a result. -/
inductive Res (A : Type) where
  | crash
  | running
  | done (a : A)

/-- One pass of the `do` loop of `generate_approx`: remez_algorithm.hpp:270-278. -/
def remezPass (d : Nat) (f : K → K) (minimum maximum target toll : K) (iter : Nat) (s : Finder K) :
    Option (Finder K) :=
  match linear_system_solve (2 * d + 1) (sysMat d f s.zero) (sysVec d f s.zero) with
  | none => none
  | some c =>
    let s := { s with coeff := c }
    if iter = 0 ∨ (toll < s.spread ∧ (target < s.farther ∨ ¬ 0 < target)) then
      some (new_step (get_abs_err d f c) (2 * d + 2) minimum maximum s)
    else some s

/-- The condition of the `do … while`: remez_algorithm.hpp:294. -/
def remezAgain (target toll : K) (s : Finder K) : Prop :=
  toll < s.spread ∧ toll ≤ s.delta ∧ (¬ 0 < target ∨ (s.eclose ≤ target ∧ target < s.farther))

instance (target toll : K) (s : Finder K) : Decidable (remezAgain target toll s) := by
  unfold remezAgain; infer_instance

/-- The loop, at most `fuel` passes: remez_algorithm.hpp:267-294. -/
def remezLoop (d : Nat) (f : K → K) (minimum maximum target toll : K) :
    Nat → Nat → Finder K → Res (Finder K)
  | 0, _, _ => .running
  | fuel + 1, iter, s =>
    match remezPass d f minimum maximum target toll iter s with
    | none => .crash
    | some s' =>
      if remezAgain target toll s' then
        remezLoop d f minimum maximum target toll fuel (iter + 1) s'
      else .done s'

/-! ### Roots -/

/-- `poly_eval`: remez_algorithm.hpp:116-126. -/
def poly_eval (x : K) (p : Nat → K) (size : Nat) : K := down size (fun i f => f * x + p i) (p size)

/-- `poly_der`: remez_algorithm.hpp:130-138. -/
def poly_der (x : K) (p : Nat → K) (size : Nat) : K :=
  down (size - 1) (fun t df => df * x + ((t + 1 : Nat) : K) * p (t + 1)) ((size : K) * p size)

/-- Newton iterations, `left` of them allowed: remez_algorithm.hpp:150-167.  A null derivative (a
division by zero in the code) counts as a failure, and so does using all the iterations. -/
def newtonLoop (p : Nat → K) (size : Nat) (acc : K) : Nat → K → Option K
  | 0, _ => none
  | left + 1, x =>
    if poly_der x p size = 0 then none
    else if acc ≤ |poly_eval x p size / poly_der x p size| then
      newtonLoop p size acc left (x - poly_eval x p size / poly_der x p size)
    else if left = 0 then none
    else some (x - poly_eval x p size / poly_der x p size)

/-- `root_find_Newton`: remez_algorithm.hpp:140-170. -/
def root_find_Newton (p : Nat → K) (size : Nat) (x1 x2 acc : K) : Option K :=
  newtonLoop p size acc 10000 (1 / 2 * (x1 + x2))

/-- Division of the polynomial by the root found, from the lowest coefficient:
remez_algorithm.hpp:97-98 and 109-110. -/
def deflate (p : Nat → K) (i : Nat) (r : K) : Nat → K :=
  up i (fun t p => put p (t + 1) ((p t - p (t + 1)) / r)) (put p 0 (p 0 / (-r)))

/-- One root: remez_algorithm.hpp:94-98 (and 107-110): CRASH on a null root. -/
def rootStep (newton : (Nat → K) → Nat → Option K) (i : Nat) (s : Option ((Nat → K) × (Nat → K))) :
    Option ((Nat → K) × (Nat → K)) :=
  s.bind fun s =>
    match newton s.1 (i + 1) with
    | none => none
    | some r => if r = 0 then none else some (deflate s.1 i r, put s.2 i r)

/-- The roots of a polynomial of degree `d`: the loop of remez_algorithm.hpp:91-99. -/
def allRoots (newton : (Nat → K) → Nat → Option K) (d : Nat) (p : Nat → K) :
    Option ((Nat → K) × (Nat → K)) :=
  down d (rootStep newton) (some (p, fun _ => 0))

/-- Coefficients of the denominator: remez_algorithm.hpp:102-103. -/
def denPoly (d : Nat) (c : Nat → K) : Nat → K :=
  fun i => if i = d then 1 else c (d + 1 + i)

/-- `root_find`: remez_algorithm.hpp:80-114 (`newton` stands for `root_find_Newton` with
`lower=-100000`, `upper=1`, `tol=1e-20`).  Result: roots, poles and constant. -/
def root_find (newton : (Nat → K) → Nat → Option K) (d : Nat) (c : Nat → K) :
    Option ((Nat → K) × (Nat → K) × K) :=
  match allRoots newton d c with
  | none => none
  | some (_, roots) =>
    match allRoots newton d (denPoly d c) with
    | none => none
    | some (_, poles) => some (roots, poles, c d)

/-! ### Partial fractions -/

/-- Multiplication of a monic polynomial by `x-r`, on `n` coefficients, in place and from the top:
remez_algorithm.cpp:361-371. -/
def mulRoot (n : Nat) (r : K) (p : Nat → K) : Nat → K :=
  down n (fun i p =>
    let p := put p i (p i * (-r))
    if 0 < i then put p i (p i + p (i - 1)) else p) p

/-- Coefficients of a product of `x-r_j`: remez_algorithm.cpp:354-371 (the loop of the code carries
numerator and denominator together; they do not interact). -/
def expandRoots (n : Nat) (r : Nat → K) : Nat → K :=
  up n (fun j p => mulRoot n (r j) p) (fun i => if i = 0 then 1 else 0)

/-- Residue number `i`: remez_algorithm.cpp:377-384. -/
def residue (n : Nat) (numer poles : Nat → K) (cons : K) (i : Nat) : K :=
  let r := down n (fun j r => r * poles i + numer j) 0
  let r := down n (fun j r => if i ≠ j then r / (poles i - poles j) else r) r
  r * cons

/-- The smallest pole from `j` on: remez_algorithm.cpp:393-394. -/
def smallest (n : Nat) (poles : Nat → K) (j : Nat) : Nat :=
  up (n - (j + 1)) (fun t small => if poles (j + 1 + t) < poles small then j + 1 + t else small) j

/-- `std::swap(v[i],v[j])`. -/
def swapK (v : Nat → K) (i j : Nat) : Nat → K :=
  fun l => if l = i then v j else if l = j then v i else v l

/-- Ordering of the poles: remez_algorithm.cpp:390-401. -/
def sortPoles (n : Nat) (s : (Nat → K) × (Nat → K)) : (Nat → K) × (Nat → K) :=
  up n (fun j s =>
    if smallest n s.2 j ≠ j then
      (swapK s.1 (smallest n s.2 j) j, swapK s.2 (smallest n s.2 j) j) else s) s

/-- `get_partial_fraction_expansion`: remez_algorithm.cpp:341-402.  Result: weights and poles. -/
def get_partial_fraction_expansion (n : Nat) (roots poles : Nat → K) (cons : K) :
    (Nat → K) × (Nat → K) :=
  let numer := fun i => expandRoots n roots i - expandRoots n poles i
  sortPoles n (fun i => residue n numer poles cons i, fun i => -poles i)

end Nissa.Remez
