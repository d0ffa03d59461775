/-
Model of the multi-shift conjugate gradient: /repo/src/inverters/templates/cgm_invert_template_threaded.hpp:11-295 (cgm_invert).
Fields and numbers as in Cg.lean: vectors of a real inner product space, exact real numbers.
-/
import Verif.Inverters.PropsCg
set_option linter.all false

namespace Nissa.Cgm
open scoped RealInnerProductSpace

variable {E : Type*} [NormedAddCommGroup E] [InnerProductSpace ℝ E] {ι : Type*} [Fintype ι]

/-- the ways in which the solver aborts: lines 55, 130, 206 and 251, 283 -/
inductive Crash | invalidNorm | nanned | reimplement | notConverging
  deriving DecidableEq

/-- sol, ps, zps, zas, run_flag, final_res of one shift -/
structure Shift (E : Type*) where
  sol : E
  ps : E
  zps : ℝ
  zas : ℝ
  run : Bool
  finalRes : ℝ

/-- p, r, rr, alpha, betaa of the loop, and the shifts -/
structure State (E : Type*) (ι : Type*) where
  p : E
  r : E
  rr : ℝ
  alpha : ℝ
  betaa : ℝ
  sh : ι → Shift E

/-- lines 37-50, 70-90. `final_res` is not initialised by the code: here 0 -/
noncomputable def init (source : E) : State E ι :=
  ⟨source, source, ⟪source, source⟫, 0, 1, fun _ => ⟨0, source, 1, 1, true, 0⟩⟩

/-- denominator of `ratio`, line 127 -/
noncomputable def den (betaa' betap alpha shift : ℝ) (s : Shift E) : ℝ := betaa' * alpha * (1 - s.zas / s.zps) + betap * (1 - shift * betaa')

/-- what is done for one shift in an iteration, lines 124-150, 214-233, 244-260; `r'` `rfrf` `alpha'` `betaa'` are the new values -/
noncomputable def stepShift (st : State E ι) (sourceNorm2 betaa' : ℝ) (r' : E) (rfrf alpha' shift residue : ℝ) (s : Shift E) : Shift E :=
  if s.run then
    let ratio := st.betaa / den betaa' st.betaa st.alpha shift s
    let zfs := s.zas * ratio
    let betas := betaa' * ratio
    let sol := s.sol - betas • s.ps
    let alphas := alpha' * zfs * betas / (s.zas * betaa')
    let ps := zfs • r' + alphas • s.ps
    let res := rfrf * zfs * zfs / sourceNorm2
    open Classical in ⟨sol, ps, s.zas, zfs, decide (¬ res < residue), res⟩
  else s

/-- body of the loop, lines 97-268. Divisions by zero give numbers that are not finite: here they end the run at once (0/0 is the only
one met with a positive operator and non negative shifts, see C29_terminates). -/
noncomputable def iterate (f : ℝ → E → E) (shifts residue : ι → ℝ) (sourceNorm2 : ℝ) (st : State E ι) : Option (State E ι) :=
  let s := f 0 st.p
  let pap := ⟪st.p, s⟫
  if pap = 0 then none else
  let betaa' := -st.rr / pap
  open Classical in
  if ∃ i, (st.sh i).run = true ∧ ((st.sh i).zps = 0 ∨ den betaa' st.betaa st.alpha (shifts i) (st.sh i) = 0) then none else
  let r' := st.r + betaa' • s
  let rfrf := ⟪r', r'⟫
  if st.rr = 0 then none else
  let alpha' := rfrf / st.rr
  some ⟨r' + alpha' • st.p, r', rfrf, alpha', betaa', fun i => stepShift st sourceNorm2 betaa' r' rfrf alpha' (shifts i) (residue i) (st.sh i)⟩

/-- nrun_shift: number of shifts still running -/
def nrun (st : State E ι) : Nat := (Finset.univ.filter (fun i => (st.sh i).run = true)).card

/-- the do-while loop, lines 95-248; with asynchronous communications the first iteration aborts after having updated p, line 206 -/
noncomputable def loop (async : Bool) (f : ℝ → E → E) (shifts residue : ι → ℝ) (sourceNorm2 : ℝ) (niter : Nat) (iter : Nat) (st : State E ι) : Except Crash (State E ι × Nat) :=
  match iterate f shifts residue sourceNorm2 st with
  | none => .error .nanned
  | some st' =>
    if async then .error .reimplement else
    if nrun st' > 0 ∧ iter + 1 < niter then loop async f shifts residue sourceNorm2 niter (iter + 1) st' else .ok (st', iter + 1)
termination_by niter - iter

/-- cgm_invert: the solutions and the number of iterations, or the abort -/
noncomputable def cgmInvert (async : Bool) (shifts : ι → ℝ) (f : ℝ → E → E) (niter : Nat) (residue : ι → ℝ) (source : E) : Except Crash ((ι → E) × Nat) :=
  let sourceNorm2 : ℝ := ⟪source, source⟫
  if sourceNorm2 = 0 then .error .invalidNorm else
  match loop async f shifts residue sourceNorm2 niter 0 (init source) with
  | .error c => .error c
  | .ok (st, finalIter) => if finalIter = niter then .error .notConverging else .ok (fun i => (st.sh i).sol, finalIter)

end Nissa.Cgm
