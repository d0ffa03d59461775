import Verif.Ib.PropsResume3

/-! # C65: concrete histories: the hypotheses are met, and cases where resuming does not give the results of the whole run -/

set_option linter.all false

namespace Nissa.Resume

/-- two configurations, three hits, two contractions in the same file: a byte each, summing the position of the numbers drawn -/
def exPlan (avg transf : Bool) (nHits : Nat) : Plan where
  nConfs := 2
  nHits := nHits
  nC := 2
  name := fun _ => 7
  sz := fun _ => 1
  photon := false
  nSou := 1
  gaugeTransf := transf
  avg := avg
  preserve := false
  contract := fun c r m l => l.map fun b => b + UInt8.ofNat (r.ori.headD 0 + m.1)
  text := fun m n r l => UInt8.ofNat n :: l

theorem exPlan_ok (avg : Bool) (n : Nat) (hn : n < 2 ^ 31) : (exPlan avg false n).Ok :=
  ⟨fun c r m l h => by simpa [exPlan] using h, hn, rfl⟩

/-- the empty disk -/
def exDisk : Disk := fun _ _ => none

theorem exDisk_fresh : Fresh exDisk := fun _ => ⟨rfl, rfl⟩

/-- a job killed after `k` changes -/
def killed (P : Plan) (k : Nat) (d : Disk) : Disk := exec d ((effects P (fun _ => false) d).flatten.take k)

/-- a job not killed -/
def whole (P : Plan) (d : Disk) : Disk := exec d (effects P (fun _ => false) d).flatten

theorem killed_job (P : Plan) (k : Nat) (d : Disk) : Job P d (killed P k d) := ⟨_, k, rfl⟩

theorem whole_job (P : Plan) (d : Disk) : Job P d (whole P d) := ⟨fun _ => false, _, by rw [List.take_length]; rfl⟩

/-- the hypotheses of `C65_resume` are met after a job killed during the second configuration and one completing it: the files are as given by the theorem, whole -/
example : let P := exPlan true false 3
    let d := whole P (killed P 42 exDisk)
    Fresh exDisk ∧ After (Job P) exDisk d ∧ killed P 42 exDisk 1 .finished = none ∧ killed P 42 exDisk 0 .finished ≠ none ∧ d 1 .finished ≠ none ∧
      d 1 (.out 7) = some (outAvg P 1 7) ∧ outAvg P 1 7 = [3, 80, 3, 83] := by
  refine ⟨exDisk_fresh, .job (.job .start (killed_job _ _ _)) (whole_job _ _), ?_, ?_, ?_, ?_, ?_⟩ <;> decide +kernel

/-- so are those of `C65_completes` -/
example : let P := exPlan true false 3
    ∀ c < 2, (killed P 42 exDisk) c .partialData = none ∨ ∃ n ≤ P.nHits, (killed P 42 exDisk) c .partialData = some (partialBytes P n (sumHits P c n)) := by
  intro P c hc
  have : c = 0 ∨ c = 1 := by omega
  rcases this with rfl | rfl
  · exact .inl (by decide +kernel)
  · exact .inr ⟨1, by decide, by decide +kernel⟩

/-- and those of `C65_violated_cut` -/
example : let P := exPlan true false 3
    (killed P 4 exDisk) 0 .partialData = some ((partialBytes P 1 (sumHits P 0 1)).take 2) ∧ (killed P 4 exDisk) 0 .finished = none := by decide +kernel

/-- **C65**.  Not averaging the hits, a job killed after printing a hit other than the first, and before the file of partial data is rewritten, leads to that hit being printed twice: the
configuration is finished, with a section too many. -/
theorem C65_violated_duplicate : ∃ (P : Plan) (d : Disk), P.Ok ∧ P.avg = false ∧ Fresh exDisk ∧ After (Job P) exDisk d ∧ d 0 .finished ≠ none ∧
    d 0 (.out 7) = some (section' P 0 7 0 ++ section' P 0 7 1 ++ section' P 0 7 1 ++ section' P 0 7 2) ∧ d 0 (.out 7) ≠ some (outHits P 0 7 P.nHits) := by
  refine ⟨exPlan false false 3, whole _ (killed (exPlan false false 3) 21 exDisk), exPlan_ok _ _ (by decide), rfl, exDisk_fresh, .job (.job .start (killed_job _ _ _)) (whole_job _ _), ?_, ?_, ?_⟩ <;>
    decide +kernel

/-- **C65**.  Reducing the number of hits after an interruption: all the hits done are summed, and the result is divided by the new number. -/
theorem C65_violated_fewer_hits : ∃ (P P' : Plan) (d d' : Disk), P.Ok ∧ P'.Ok ∧ P' = { P with nHits := P'.nHits } ∧ P.avg = true ∧ P'.nHits = 1 ∧ Job P exDisk d ∧ Job P' d d' ∧ d' 0 .finished ≠ none ∧
    d' 0 (.out 7) = some ((List.finRange P.nC).flatMap fun m => P.text m 1 none (sumHits P 0 2 m)) ∧ d' 0 (.out 7) ≠ some (outAvg P' 0 7) := by
  refine ⟨exPlan true false 3, exPlan true false 1, killed (exPlan true false 3) 17 exDisk, whole _ (killed (exPlan true false 3) 17 exDisk), exPlan_ok _ _ (by decide), exPlan_ok _ _ (by decide), rfl, rfl, rfl,
    killed_job _ _ _, whole_job _ _, ?_, ?_, ?_⟩ <;> decide +kernel

/-- **C65**.  With the random gauge transformation, the numbers it draws are not drawn for the configurations skipped: a run interrupted after the first configuration gives for the second a
result other than that of the whole run, to which no other difference leads. -/
theorem C65_violated_gauge_transform : ∃ (P : Plan) (k : Nat), P.gaugeTransf = true ∧ P.avg = true ∧
    whole P exDisk 1 .finished ≠ none ∧ whole P (killed P k exDisk) 1 .finished ≠ none ∧ killed P k exDisk 0 .finished ≠ none ∧
    whole P exDisk 1 (.out 7) ≠ whole P (killed P k exDisk) 1 (.out 7) := by
  refine ⟨exPlan true true 3, 33, rfl, rfl, ?_, ?_, ?_, ?_⟩ <;> decide +kernel

end Nissa.Resume
