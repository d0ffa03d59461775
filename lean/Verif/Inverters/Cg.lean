/-
Model of the conjugate gradient: /repo/src/inverters/templates/cg_invert_template_threaded.hpp:17-150 (cg_invert).
Fields are vectors of a real inner product space (norm2 and realPartOfScalarProdWith are the real scalar product of all the degrees
of freedom), numbers are real numbers (exact arithmetic). NaN is reached in exact arithmetic only through 0/0: see `iterate`.
-/
import Mathlib.Analysis.InnerProductSpace.Basic
set_option linter.all false

namespace Nissa.Cg
open scoped RealInnerProductSpace

variable {E : Type*} [NormedAddCommGroup E] [InnerProductSpace ℝ E]

/-- the ways in which the solver aborts: line 57 (invalid norm), line 116 (nanned), line 146 (exit without converging) -/
inductive Crash | invalidNorm | nanned | notConverging
  deriving DecidableEq

/-- sol, p, r, delta of the loop -/
structure State (E : Type*) where
  sol : E
  p : E
  r : E
  delta : ℝ

/-- lines 34-37, 47-53 -/
noncomputable def init (f : E → E) (guess : Option E) (source : E) : State E :=
  let sol := match guess with
    | some x => x
    | none => 0
  let s := f sol
  let r := source - s
  ⟨sol, r, r, ⟪r, r⟫⟩

/-- body of the loop, lines 68-125. When alpha is zero omega=delta/alpha is not finite, sol and r are filled with NaN or infinities:
here this ends the run at once; when delta is also zero (the only case met with a positive operator) gammag is NaN and the code aborts
at line 116. -/
noncomputable def iterate (f : E → E) (st : State E) : Option (State E) :=
  let s := f st.p
  let alpha := ⟪s, st.p⟫
  if alpha = 0 then none else
  let omega := st.delta / alpha
  let sol := st.sol + omega • st.p
  let r := st.r - omega • s
  let lambda := ⟪r, r⟫
  if st.delta = 0 then none else
  let gammag := lambda / st.delta
  some ⟨sol, r + gammag • st.p, r, lambda⟩

/-- the do-while loop, lines 66-126: `iter` iterations already made. Gives the state and `final_iter` -/
noncomputable def loop (f : E → E) (niter : Nat) (bound : ℝ) (iter : Nat) (st : State E) : Except Crash (State E × Nat) :=
  match iterate f st with
  | none => .error .nanned
  | some st' =>
    open Classical in
    if st'.delta ≥ bound ∧ iter + 1 < niter then loop f niter bound (iter + 1) st' else .ok (st', iter + 1)
termination_by niter - iter

/-- cg_invert: the solution and the number of iterations, or the abort. A negative `niter` behaves as 0. -/
noncomputable def cgInvert (guess : Option E) (f : E → E) (niter : Nat) (residue : ℝ) (source : E) : Except Crash (E × Nat) :=
  let sourceNorm2 : ℝ := ⟪source, source⟫
  if sourceNorm2 = 0 then .error .invalidNorm else
  match loop f niter (residue * sourceNorm2) 0 (init f guess source) with
  | .error c => .error c
  | .ok (st, finalIter) => if finalIter = niter then .error .notConverging else .ok (st.sol, finalIter)

end Nissa.Cg
