import Verif.Generate.PropsRun7

set_option linter.all false

/-! C77: a concrete run that meets the hypotheses of the theorems, and the violations. -/

namespace Nissa.Gen.Toy

open Nissa.Gen

/-- A toy run: two measurements, an update which depends on both generators. -/
def P : Prog Int Unit Nat Nat Int where
  path := "conf"
  storePath i := String.ofList ('s' :: (if i < 0 then 'm' else 'p') :: List.replicate i.natAbs 'x')
  storeEach := 2
  storeRunning := 1
  ntrajTot := 5
  seed := 4
  walltime := 100
  nTheories := 1
  gauge := [{ each := 1, after := 0, path := "plaq", lines := fun c i acc => [i, c] }]
  ferm := [{ each := 2, after := 2, itheory := 0, path := "chir",
             run := fun c i ρ => ([i, c * ρ.2], (ρ.1, ρ.2 + 1)) }]
  update i c a ρ := (c * 3 + ρ.1 + ρ.2, (), (ρ.1 + 1, ρ.2 + 2), 1)
  initial ρ := (7, (ρ.1, ρ.2 + 5))
  seedGlb n := n.toNat
  seedLoc g := (g * g, g + 1)
  noRat := ()

/-- Empty disk. -/
def d0 : Disk Int Unit Nat Int := { confs := fun _ => none, texts := fun _ => none, stop := false, seedNew := none }

/-- An iteration with nothing special: one unit of time at time t. -/
def e (t : ℚ) : Env := { stop := false, restart := false, tCheck := t, tStart := t, tEnd := t + 1 }

/-- The file `restart` is found. -/
def r (t : ℚ) : Env := { e t with restart := true }

/-- The disk after a session. -/
def after (P : Prog Int Unit Nat Nat Int) (es : List Env) (d : Disk Int Unit Nat Int) : Disk Int Unit Nat Int :=
  match session P 0 es d with
  | some o => applyAll o.acts d
  | none => d

theorem path_ne : ∀ i, P.storePath i ≠ P.path := by
  intro i h
  have := congrArg String.toList h
  simp [P] at this

theorem path_inj : ∀ i j, P.storePath i = P.storePath j → i = j := by
  intro i j h
  have := congrArg String.toList h
  simp only [P, String.toList_ofList, List.cons.injEq, true_and] at this
  obtain ⟨h1, h2⟩ := this
  have h3 := congrArg List.length h2
  simp only [List.length_replicate] at h3
  by_cases hi : i < 0 <;> by_cases hj : j < 0 <;> simp [hi, hj] at h1 <;> omega

/-- The hypotheses of C77_session, C77_stop, C77_history_scratch, C77_crash are met: a session from
scratch interrupted after two trajectories, a second one, with `seed_new`, up to the end. -/
example : (session P 0 [e 0, e 1, r 2] d0).isSome = true ∧
    ((session P 0 [e 0, e 1, r 2] d0).map fun o => (o.ended, o.proc.itraj)) = some (true, 2) ∧
    SavedAtEnd P 2 ∧ (after P [e 0, e 1, r 2] d0).confs "conf" =
      some (.full { conf := 170, itraj := some 2, rat := some (), glb := some 7 }) ∧
    (after P [e 0, e 1, r 2] d0).texts "plaq" = some [1, 47, 2, 170] ∧
    (after P [e 0, e 1, r 2] d0).texts "chir" = some [2, 170 * 25] ∧
    (after P [e 0, e 1, r 2] d0).confs (P.storePath 2) =
      some (.full { conf := 170, itraj := some 2, rat := some (), glb := some 7 }) := by
  refine ⟨by decide +kernel, by decide +kernel, Or.inl (by decide +kernel), by decide +kernel, by decide +kernel,
    by decide +kernel, by decide +kernel⟩

example : OwnsFile P { each := 1, after := 0, path := "plaq", lines := fun c i acc => [i, c] } := by
  refine ⟨[], [], rfl, ?_, ?_, ?_⟩ <;> simp [P]

example : OwnsFileF P { each := 2, after := 2, itheory := 0, path := "chir", run := fun c i ρ => ([i, c * ρ.2], (ρ.1, ρ.2 + 1)) } := by
  refine ⟨[], [], rfl, ?_, ?_, ?_⟩ <;> simp [P]

/-- Two sessions one after the other: the second stops by itself at `ntraj_tot` and creates `stop`. -/
example :
    let d1 := after P [e 0, e 1, r 2] d0
    let d2 := after P [e 0, e 1, e 2, e 3] { d1 with seedNew := some 9 }
    ((session P 0 [e 0, e 1, e 2, e 3] { d1 with seedNew := some 9 }).map fun o => (o.ended, o.proc.itraj)) = some (true, 5) ∧
    d2.stop = true ∧ d2.seedNew = none ∧ (d2.texts "plaq").map List.length = some 10 := by
  decide +kernel

/-! ## What a user could expect and does not hold -/

/-- The running configuration is written only at the end (`StoreRunning 0`), and one every two is stored. -/
def P0 : Prog Int Unit Nat Nat Int := { P with storeRunning := 0 }

/-- C77, violated: with `StoreRunning 0`, a session that ends exactly at a multiple of `StoreEach` does
not write the running configuration (the end of the session believes that it has been saved, but it
has been saved with another name).  If the run began in that session the next one starts again from
scratch: it erases the measurements already done and overwrites the stored configurations with others. -/
theorem C77_violated_last_stored :
    let d1 := after P0 [e 0, e 1, r 2] d0
    let d2 := after P0 [e 0, e 1, r 2] { d1 with seedNew := some 9 }
    ((session P0 0 [e 0, e 1, r 2] d0).map fun o => (o.ended, o.proc.itraj)) = some (true, 2) ∧
    d1.confs "conf" = none ∧ d1.texts "plaq" = some [1, 47, 2, 170] ∧
    ((session P0 0 [e 0, e 1, r 2] { d1 with seedNew := some 9 }).map fun o => (o.ended, o.proc.itraj)) = some (true, 2) ∧
    d2.texts "plaq" = some [1, 117, 2, 450] ∧
    d2.confs (P0.storePath 2) ≠ d1.confs (P0.storePath 2) := by
  decide +kernel

/-- C77, violated: the same, when the run was already going on: the trajectories of the session are done
again, and the measurements are in the file twice. -/
theorem C77_violated_last_stored_twice :
    let d1 := after P0 [e 0, r 1] d0
    let d2 := after P0 [e 0, r 1] d1
    let d3 := after P0 [e 0, r 1] d2
    (d1.confs "conf").isSome = true ∧
    ((session P0 0 [e 0, r 1] d1).map fun o => (o.ended, o.proc.itraj)) = some (true, 2) ∧
    d2.confs "conf" = d1.confs "conf" ∧ d2.texts "plaq" = some [1, 47, 2, 184] ∧
    d3.texts "plaq" = some [1, 47, 2, 184, 2, 184] := by
  decide +kernel

/-- C77, violated: if the process is killed while the running configuration is being written, the next
session cannot start (the old configuration has been destroyed before having the new one), in whatever
run and at whatever iteration. -/
theorem C77_violated_torn {C A G L Line : Type} (P : Prog C A G L Line) (d : Disk C A G Line)
    (pre : List (Act C A G Line)) (tInit : ℚ) (es : List Env) :
    session P tInit es (applyAll (pre ++ [.beginW P.path]) d) = none := by
  have : (applyAll (pre ++ [.beginW P.path]) d).confs P.path = some .torn := by
    rw [applyAll_append]; simp [applyAll, Act.apply]
  unfold session initRun
  rw [this]; rfl

/-- Such a crash point exists. -/
theorem C77_violated_torn_reachable :
    ∃ pre acts, (session P 0 [e 0, r 1] d0).map (fun o => o.acts) = some acts ∧
      (pre ++ [Act.beginW P.path]) <+: acts ∧ pre ≠ [] := by
  refine ⟨[.trunc "plaq", .line "plaq" 1, .line "plaq" 47],
    [.trunc "plaq", .line "plaq" 1, .line "plaq" 47, .beginW "conf", .endW "conf" ⟨47, some 1, some (), some 6⟩,
        .beginW "conf", .endW "conf" ⟨47, some 1, some (), some 6⟩], by decide +kernel, ?_, by simp⟩
  exact ⟨[.endW "conf" ⟨47, some 1, some (), some 6⟩,
        .beginW "conf", .endW "conf" ⟨47, some 1, some (), some 6⟩], rfl⟩

/-- C77, violated: if the process is killed after the measurements and before the running configuration
is written, the next session does the same measurements again, on the same trajectory number, and the
file has two different results for it. -/
theorem C77_violated_twice :
    let d1 := after P [e 0, r 1] d0
    let d2 := (match session P 0 [e 0, r 1] { d1 with seedNew := some 2 } with
      | some o => applyAll (o.acts.takeWhile fun a => match a with | .beginW _ => false | _ => true) { d1 with seedNew := some 2 }
      | none => d1)
    let d3 := after P [e 0, r 1] d2
    d1.texts "plaq" = some [1, 47] ∧ d2.texts "plaq" = some [1, 47, 2, 148] ∧ d2.confs "conf" = d1.confs "conf" ∧
    d3.texts "plaq" = some [1, 47, 2, 148, 2, 184] := by
  decide +kernel

/-- Two measurements with the same file. -/
def P2 : Prog Int Unit Nat Nat Int :=
  { P with gauge := [{ each := 1, after := 0, path := "plaq", lines := fun c i acc => [i, c] },
                     { each := 1, after := 0, path := "plaq", lines := fun c i acc => [i, -c] }] }

/-- C77, violated: if two measurements have the same file, at the first trajectory of a new run the
second erases what the first has written; later both are kept. -/
theorem C77_violated_same_path :
    (after P2 [e 0, e 1, r 2] d0).texts "plaq" = some [1, -47, 2, 170, 2, -170] := by
  decide +kernel

/-- C77, violated: stopping and restarting changes the chain: the local generators are not saved, they
are started again from the global one. -/
theorem C77_violated_reproducible :
    let a := after P [e 0, e 1, r 2] d0
    let b := after P [e 0, r 1] (after P [e 0, r 1] d0)
    a.texts "plaq" = some [1, 47, 2, 170] ∧ b.texts "plaq" = some [1, 47, 2, 184] := by
  decide +kernel

/-- Two configurations, the second without its number. -/
def dA : Disk Int Unit Nat Int :=
  { d0 with confs := fun p => if p = "a" then some (.full ⟨11, some 3, some (), none⟩)
                              else if p = "b" then some (.full ⟨12, none, none, none⟩) else none }

/-- C77, violated: in the analysis mode a configuration which does not hold its number is measured
with the number of the previous one (0 if it is the first). -/
theorem C77_violated_analysis_id :
    (applyAll (analysisSession P 0 0 [e 0, e 1] ["a", "b"] dA).1 dA).texts "plaq" = some [3, 11, 3, 12] ∧
    (applyAll (analysisSession P 0 0 [e 0, e 1] ["b", "a"] dA).1 dA).texts "plaq" = some [0, 12, 3, 11] := by
  decide +kernel

/-- C77, violated: in the analysis mode the wall time is not looked at, however late it is. -/
theorem C77_violated_analysis_walltime {C A G L Line : Type} (P : Prog C A G L Line) (c0 : C) (tInit : ℚ) (d : Disk C A G Line)
    (cs : List String) (hcs : ∀ p ∈ cs, ∃ f, d.confs p = some (.full f)) (es : List Env) (hes : cs.length ≤ es.length)
    (hstop : ∀ e ∈ es, e.stop = false) (es' : List Env) (hes' : es'.length = es.length)
    (hstop' : ∀ e ∈ es', e.stop = false) :
    analysisSession P c0 tInit es cs d = analysisSession P c0 tInit es' cs d ∧
    (analysisSession P c0 tInit es cs d).2.2 = true := by
  have key : ∀ (cs : List String) (hcs : ∀ p ∈ cs, ∃ f, d.confs p = some (.full f)) (es es' : List Env)
      (hes : cs.length ≤ es.length) (hes' : es'.length = es.length) (hstop : ∀ e ∈ es, e.stop = false)
      (hstop' : ∀ e ∈ es', e.stop = false) (s : Proc C A G L) (hs : s.ntrajProd = 0),
      analysisLoop P tInit d cs es s = analysisLoop P tInit d cs es' s ∧
      (analysisLoop P tInit d cs es s).2.2 = true := by
    intro cs
    induction cs with
    | nil => intros; simp [analysisLoop]
    | cons c cs ih =>
      intro hcs es es' hes hes' hst hst' s hs
      obtain ⟨f, hf⟩ := hcs c List.mem_cons_self
      cases es with
      | nil => simp at hes
      | cons x es =>
        cases es' with
        | nil => simp at hes'
        | cons y es' =>
          have h1 := hst x List.mem_cons_self
          have h2 := hst' y List.mem_cons_self
          have := ih (fun p hp => hcs p (List.mem_cons_of_mem _ hp)) es es' (by simpa using hes) (by simpa using hes')
            (fun e he => hst e (List.mem_cons_of_mem _ he)) (fun e he => hst' e (List.mem_cons_of_mem _ he))
          simp only [analysisLoop, hf, h1, h2, enoughTime, hs, if_true, Bool.not_false, Bool.true_and]
          refine ⟨?_, ?_⟩
          · rw [(this _ rfl).1]
          · exact (this _ rfl).2
  have := key cs hcs es es' hes hes' hstop hstop'
    { conf := c0, itraj := 0, rat := P.noRat, rnd := (initRnd P d none).2, created := false, ntrajProd := 0,
      storedLast := false, maxTime := 0 } rfl
  unfold analysisSession
  refine ⟨?_, this.2⟩
  exact congrArg (fun x : List (Act C A G Line) × Proc C A G L × Bool => ((initRnd P d none).1 ++ x.1, x.2)) this.1

/-- The analysis of two configurations goes to the end although the first reading of the clock is
beyond the wall time. -/
example : (analysisSession P 0 0 [e 500, e 1000] ["a", "a"] dA).2.2 = true ∧
    (applyAll (analysisSession P 0 0 [e 500, e 1000] ["a", "a"] dA).1 dA).texts "plaq" = some [3, 11, 3, 11] := by
  decide +kernel

end Nissa.Gen.Toy
