import Verif.Ib.PropsResume1

/-! # C65: resuming an interrupted run, averaging the hits -/

set_option linter.all false

namespace Nissa.Resume

variable {P : Plan}

theorem zero_len (m : Fin P.nC) : (zero P m).length = P.sz m := by unfold zero; rw [List.length_replicate]

theorem sumHits_len (ok : P.Ok) (c i : Nat) (m : Fin P.nC) : (sumHits P c i m).length = P.sz m := by
  induction i with
  | zero => exact zero_len m
  | succ i ih => exact ok.len _ _ _ _ ih

/-- what holds of the folder of a configuration at any time -/
def InvC (P : Plan) (c : Nat) (fs : File → Option (List UInt8)) : Prop :=
  (fs .partialData = none ∨ ∃ n ≤ P.nHits, ∃ t, t <+: partialBytes P n (sumHits P c n) ∧ fs .partialData = some t) ∧
  (fs .finished ≠ none → ∀ m, fs (.out (P.name m)) = some (outAvg P c (P.name m)))

def Inv (P : Plan) (d : Disk) : Prop := ∀ c, InvC P c (d c)

/-- changes of other files of a folder not finished -/
theorem inv_keep {d d' : Disk} (h : Inv P d) (c : Nat) (hf : d c .finished = none) (h1 : d' c .partialData = d c .partialData) (h2 : d' c .finished = none)
    (h3 : ∀ c', c' ≠ c → d' c' = d c') : Inv P d' := by
  intro c'
  by_cases hc : c' = c
  · subst hc
    refine ⟨?_, fun h => absurd h2 h⟩
    rw [h1]
    exact (h c').1
  · rw [h3 c' hc]; exact h c'

/-- the folder of the targets -/
theorem exec_folder (d : Disk) (l : List Effect) (c : Nat) (h : ∀ e ∈ l, (target e).1 = c) (c' : Nat) (hc : c' ≠ c) : exec d l c' = d c' := by
  funext f
  refine exec_other d l c' f fun e he heq => hc ?_
  rw [← h e he, heq]

theorem safe_keep {d : Disk} (h : Inv P d) (c : Nat) (hf : d c .finished = none) (l : List Effect) (hl : ∀ e ∈ l, (target e).1 = c ∧ (target e).2 ≠ .partialData ∧ (target e).2 ≠ .finished) :
    Safe (Inv P) d l ∧ exec d l c .finished = none ∧ exec d l c .partialData = d c .partialData := by
  have key : ∀ l' : List Effect, (∀ e ∈ l', (target e).1 = c ∧ (target e).2 ≠ .partialData ∧ (target e).2 ≠ .finished) →
      exec d l' c .finished = none ∧ exec d l' c .partialData = d c .partialData := by
    intro l' hl'
    constructor
    · rw [exec_other d l' c _ fun e he heq => (hl' e he).2.2 (by rw [heq]), hf]
    · exact exec_other d l' c _ fun e he heq => (hl' e he).2.1 (by rw [heq])
  refine ⟨?_, key l hl⟩
  intro k
  have hk : ∀ e ∈ l.take k, (target e).1 = c ∧ (target e).2 ≠ .partialData ∧ (target e).2 ≠ .finished := fun e he => hl e (List.mem_of_mem_take he)
  exact inv_keep h c hf (key _ hk).2 (key _ hk).1 fun c' hc => exec_folder d _ c (fun e he => (hk e he).1) c' hc

theorem writePartial_target (c n : Nat) (contr : Contr P) : ∀ e ∈ writePartialData P c n contr, target e = (c, .partialData) := by
  intro e he
  rcases List.mem_cons.1 he with rfl | he
  · rfl
  · exact putAll_target _ _ _ e he

theorem safe_partial {d : Disk} (h : Inv P d) (c : Nat) (hf : d c .finished = none) (n : Nat) (hn : n ≤ P.nHits) :
    Safe (Inv P) d (writePartialData P c n (sumHits P c n)) ∧ exec d (writePartialData P c n (sumHits P c n)) c .finished = none ∧
      exec d (writePartialData P c n (sumHits P c n)) c .partialData = some (partialBytes P n (sumHits P c n)) := by
  have hfin : ∀ l : List Effect, (∀ e ∈ l, target e = (c, .partialData)) → exec d l c .finished = none := by
    intro l hl
    rw [exec_other d l c _ fun e he heq => by rw [hl e he] at heq; injection heq with _ h; injection h, hf]
  have hp : ∀ bs, exec d (.create c .partialData :: putAll c .partialData bs) c .partialData = some bs := by
    intro bs
    rw [exec_cons, exec_putAll (apply d (.create c .partialData)) _ _ _ [] (setFile_same _ _ _ _), List.nil_append]
  refine ⟨?_, hfin _ (writePartial_target c n _), hp _⟩
  intro k
  cases k with
  | zero => exact h
  | succ k =>
    have e : (writePartialData P c n (sumHits P c n)).take (k + 1) = .create c .partialData :: putAll c .partialData ((partialBytes P n (sumHits P c n)).take k) := by
      unfold writePartialData; rw [List.take_succ_cons, putAll_take]
    rw [e]
    have ht : ∀ e ∈ (Effect.create c .partialData :: putAll c .partialData ((partialBytes P n (sumHits P c n)).take k)), target e = (c, .partialData) := by
      intro e he
      rcases List.mem_cons.1 he with rfl | he
      · rfl
      · exact putAll_target _ _ _ e he
    intro c'
    by_cases hc : c' = c
    · subst hc
      exact ⟨.inr ⟨n, hn, _, List.take_prefix _ _, hp _⟩, fun h => absurd (hfin _ ht) h⟩
    · rw [exec_folder d _ c (fun e he => by rw [ht e he]) c' hc]; exact h c'

/-! ### The hits -/

theorem hits_safe (ok : P.Ok) (ha : P.avg = true) (c n : Nat) (hn : n ≤ P.nHits) (d : Disk) (h : Inv P d) (hf : d c .finished = none) (i : Nat) (hi : i ≤ P.nHits) :
    let s := (List.range i).foldl (hitBody P c n) ⟨posOf P c 0, ⟨[], none, []⟩, sumHits P c n, []⟩
    s.pos = posOf P c i ∧ s.contr = sumHits P c (max i n) ∧ Safe (Inv P) d s.eff.flatten ∧ exec d s.eff.flatten c .finished = none ∧ ∀ e ∈ s.eff.flatten, (target e).1 = c := by
  induction i with
  | zero => exact ⟨rfl, by simp, Safe.nil h, hf, by simp⟩
  | succ i ih =>
    intro s
    obtain ⟨h1, h2, h3, h4, h5⟩ := ih (by omega)
    have hs : s = hitBody P c n ((List.range i).foldl (hitBody P c n) ⟨posOf P c 0, ⟨[], none, []⟩, sumHits P c n, []⟩) i := by
      show (List.range (i + 1)).foldl _ _ = _
      rw [List.range_succ, List.foldl_append]; rfl
    generalize (List.range i).foldl (hitBody P c n) ⟨posOf P c 0, ⟨[], none, []⟩, sumHits P c n, []⟩ = q at *
    have hrm : ∀ d' : Disk, Inv P d' → d' c .finished = none → Safe (Inv P) d' [Effect.remove c .nTrials] ∧ exec d' [Effect.remove c .nTrials] c .finished = none := by
      intro d' h' hf'
      have := safe_keep h' c hf' [Effect.remove c .nTrials] (by intro e he; rw [List.mem_singleton] at he; subst he; exact ⟨rfl, by simp [target], by simp [target]⟩)
      exact ⟨this.1, this.2.1⟩
    by_cases hsk : i < n
    · have e : s = ⟨posOf P c (i + 1), (start_hit P true q.pos).1, q.contr, q.eff ++ [[Effect.remove c .nTrials]]⟩ := by
        rw [hs]
        unfold hitBody
        simp only [hsk, decide_true, if_true, ha]
        rw [start_hit_pos, h1, posOf_succ]
      rw [e]
      refine ⟨rfl, ?_, ?_, ?_, ?_⟩
      · show q.contr = _
        rw [h2, show max (i + 1) n = max i n by omega]
      · show Safe _ d (q.eff ++ [[Effect.remove c .nTrials]]).flatten
        rw [List.flatten_append, List.flatten_singleton]
        exact h3.append (hrm _ h3.final h4).1
      · show exec d (q.eff ++ [[Effect.remove c .nTrials]]).flatten c .finished = none
        rw [List.flatten_append, List.flatten_singleton, exec_append]
        exact (hrm _ h3.final h4).2
      · intro e he
        change e ∈ (q.eff ++ [[Effect.remove c .nTrials]]).flatten at he
        rw [List.flatten_append, List.flatten_singleton, List.mem_append, List.mem_singleton] at he
        rcases he with he | rfl
        · exact h5 e he
        · rfl
    · have hm : max i n = i := by omega
      have e : s = ⟨posOf P c (i + 1), rndAt P (posOf P c i), sumHits P c (i + 1), q.eff ++ [writePartialData P c (i + 1) (sumHits P c (i + 1)) ++ [Effect.remove c .nTrials]]⟩ := by
        rw [hs]
        unfold hitBody
        simp only [hsk, decide_false, Bool.false_eq_true, if_false, ha, if_true, List.nil_append]
        rw [start_hit_pos, h1, posOf_succ, start_hit_rnd, h2, hm]
        rfl
      rw [e]
      obtain ⟨p1, p2, p3⟩ := safe_partial h3.final c h4 (i + 1) hi
      refine ⟨rfl, ?_, ?_, ?_, ?_⟩
      · show sumHits P c (i + 1) = _
        rw [show max (i + 1) n = i + 1 by omega]
      · show Safe _ d (q.eff ++ [writePartialData P c (i + 1) (sumHits P c (i + 1)) ++ [Effect.remove c .nTrials]]).flatten
        rw [List.flatten_append, List.flatten_singleton]
        exact h3.append (p1.append (hrm _ p1.final p2).1)
      · show exec d (q.eff ++ [writePartialData P c (i + 1) (sumHits P c (i + 1)) ++ [Effect.remove c .nTrials]]).flatten c .finished = none
        rw [List.flatten_append, List.flatten_singleton, exec_append, exec_append]
        exact (hrm _ p1.final p2).2
      · intro e he
        change e ∈ (q.eff ++ [writePartialData P c (i + 1) (sumHits P c (i + 1)) ++ [Effect.remove c .nTrials]]).flatten at he
        rw [List.flatten_append, List.flatten_singleton, List.mem_append, List.mem_append, List.mem_singleton] at he
        rcases he with he | he | rfl
        · exact h5 e he
        · rw [writePartial_target _ _ _ e he]
        · rfl

/-- the final block -/
theorem last_safe (ok : P.Ok) (ha : P.avg = true) (c : Nat) (d : Disk) (h : Inv P d) (hf : d c .finished = none) (rnd : HitRnd) :
    let l := (if P.avg then print_contr P c 0 rnd (sumHits P c P.nHits) else []) ++ [Effect.create c .finished] ++ (if P.preserve then [] else [Effect.remove c .partialData])
    Safe (Inv P) d l ∧ (exec d l c .finished).isSome ∧ ∀ e ∈ l, (target e).1 = c := by
  intro l
  obtain ⟨h1, h2, h3⟩ := safe_keep h c hf (print_contr P c 0 rnd (sumHits P c P.nHits)) fun e he => by
    obtain ⟨nm, hn⟩ := print_target P c 0 rnd _ e he
    rw [hn]; exact ⟨rfl, by simp, by simp⟩
  have hout : ∀ m, exec d (print_contr P c 0 rnd (sumHits P c P.nHits)) c (.out (P.name m)) = some (outAvg P c (P.name m)) := by
    intro m
    rw [print_exec, ha]
    simp [outAvg]
  have hl : l = print_contr P c 0 rnd (sumHits P c P.nHits) ++ ([Effect.create c .finished] ++ (if P.preserve then [] else [Effect.remove c .partialData])) := by
    show _ ++ _ ++ _ = _
    rw [ha, if_pos rfl, List.append_assoc]
  set d1 := exec d (print_contr P c 0 rnd (sumHits P c P.nHits)) with hd1
  have i1 : Inv P d1 := h1.final
  have i2 : Inv P (apply d1 (.create c .finished)) := by
    intro c'
    by_cases hc : c' = c
    · subst hc
      refine ⟨?_, fun _ m => ?_⟩
      · rw [apply_other d1 (.create c' .finished) c' .partialData (by simp [target])]
        exact (i1 c').1
      · rw [apply_other d1 (.create c' .finished) c' _ (by simp [target]), hout m]
    · have : apply d1 (.create c .finished) c' = d1 c' := by
        funext f; exact apply_other d1 _ c' f (by simp [target]; intro h; exact absurd h.symm hc)
      rw [this]; exact i1 c'
  have i3 : Inv P (apply (apply d1 (.create c .finished)) (.remove c .partialData)) := by
    intro c'
    by_cases hc : c' = c
    · subst hc
      refine ⟨.inl (setFile_same _ _ _ _), fun _ m => ?_⟩
      rw [apply_other _ (.remove c' .partialData) c' _ (by simp [target]), apply_other d1 (.create c' .finished) c' _ (by simp [target]), hout m]
    · have : ∀ d2 : Disk, apply d2 (.remove c .partialData) c' = d2 c' := by
        intro d2; funext f; exact apply_other d2 _ c' f (by simp [target]; intro h; exact absurd h.symm hc)
      rw [this]; exact i2 c'
  have s2 : Safe (Inv P) d1 ([Effect.create c .finished] ++ (if P.preserve then [] else [Effect.remove c .partialData])) := by
    refine (Safe.single i1 i2).append ?_
    cases P.preserve
    · exact Safe.single i2 i3
    · exact Safe.nil i2
  rw [hl]
  refine ⟨h1.append s2, ?_, ?_⟩
  · rw [exec_append, exec_append, ← hd1]
    have : exec d1 [Effect.create c .finished] c .finished = some [] := setFile_same _ _ _ _
    rw [exec_other _ _ c .finished, this]
    · rfl
    · cases P.preserve <;> simp [target]
  · intro e he
    rw [List.mem_append, List.mem_append] at he
    rcases he with he | he | he
    · obtain ⟨nm, hn⟩ := print_target P c 0 rnd _ e he
      rw [hn]
    · rw [List.mem_singleton] at he; subst he; rfl
    · cases hp : P.preserve <;> rw [hp] at he <;> simp at he
      subst he; rfl

/-- the whole configuration -/
theorem runConf_safe (ok : P.Ok) (ha : P.avg = true) (c : Nat) (d : Disk) (h : Inv P d) (hf : d c .finished = none) (pos' : Nat) (e : List (List Effect))
    (hr : runConf P c (d c .partialData) (posOf P c 0) = some (pos', e)) :
    pos' = posOf P (c + 1) 0 ∧ Safe (Inv P) d e.flatten ∧ (exec d e.flatten c .finished).isSome ∧ ∀ x ∈ e.flatten, (target x).1 = c := by
  have hload : ∃ n ≤ P.nHits, maybeLoadPartialData P (d c .partialData) (zero P) = some (n, sumHits P c n) := by
    rcases (h c).1 with h0 | ⟨n, hn, t, ht, h0⟩
    · exact ⟨0, by omega, by rw [h0]; rfl⟩
    · refine ⟨n, hn, ?_⟩
      have := C65_partial_data P n (by have := ok.hits; omega) (sumHits P c n) (zero P) (sumHits_len ok c n) t ht
      rw [h0]
      by_cases hc : t = partialBytes P n (sumHits P c n)
      · rw [this, if_pos hc]
      · exfalso
        rw [if_neg hc] at this
        unfold runConf at hr
        rw [h0, this] at hr
        cases hr
  obtain ⟨n, hn, hl⟩ := hload
  unfold runConf at hr
  rw [hl] at hr
  simp only [Option.bind_eq_bind, Option.bind_some, Option.pure_def, Option.some.injEq, Prod.mk.injEq] at hr
  obtain ⟨h1, h2, h3, h4, h5⟩ := hits_safe ok ha c n hn d h hf P.nHits (le_refl _)
  obtain ⟨hr1, hr2⟩ := hr
  subst hr1 hr2
  generalize hq : (List.range P.nHits).foldl (hitBody P c n) ⟨posOf P c 0, ⟨[], none, []⟩, sumHits P c n, []⟩ = q at *
  rw [show max P.nHits n = P.nHits by omega] at h2
  rw [h2]
  obtain ⟨l1, l2, l3⟩ := last_safe ok ha c (exec d q.eff.flatten) h3.final h4 q.rnd
  refine ⟨by rw [h1, posOf_next], ?_, ?_, ?_⟩
  · rw [List.flatten_append, List.flatten_singleton]; exact h3.append l1
  · rw [List.flatten_append, List.flatten_singleton, exec_append]; exact l2
  · intro x hx
    rw [List.flatten_append, List.flatten_singleton, List.mem_append] at hx
    rcases hx with hx | hx
    · exact h5 x hx
    · exact l3 x hx

/-! ### The configurations -/

/-- body of the loop -/
def confBody (P : Plan) (skip : Nat → Bool) (d : Disk) (s : Nat × List (List Effect) × Bool) (c : Nat) : Nat × List (List Effect) × Bool :=
    let (pos, eff, stopped) := s
    if stopped then s
    else if (d c .finished).isSome || skip c then (skip_conf P pos, eff, false)
    else
      let eff := eff ++ [[Effect.create c .nTrials]]
      match runConf P c (d c .partialData) (setup_conf P pos) with
      | none => (pos, eff, true)
      | some (pos, e) => (pos, eff ++ e, false)

theorem process_eq (skip : Nat → Bool) (d : Disk) : process P skip d = (List.range P.nConfs).foldl (confBody P skip d) (0, [], false) := rfl

theorem confs_safe (ok : P.Ok) (ha : P.avg = true) (skip : Nat → Bool) (d : Disk) (h : Inv P d) (n : Nat) :
    let s := (List.range n).foldl (confBody P skip d) (0, [], false)
    Safe (Inv P) d s.2.1.flatten ∧ (s.2.2 = false → s.1 = posOf P n 0 ∧ (∀ c, n ≤ c → exec d s.2.1.flatten c = d c) ∧
      ∀ c < n, skip c = false → (exec d s.2.1.flatten c .finished).isSome) := by
  induction n with
  | zero => exact ⟨Safe.nil h, fun _ => ⟨by simp [posOf], fun _ _ => rfl, by omega⟩⟩
  | succ n ih =>
    intro s
    obtain ⟨h1, h2⟩ := ih
    have hs : s = confBody P skip d ((List.range n).foldl (confBody P skip d) (0, [], false)) n := by
      show (List.range (n + 1)).foldl _ _ = _
      rw [List.range_succ, List.foldl_append]; rfl
    generalize (List.range n).foldl (confBody P skip d) (0, [], false) = q at *
    obtain ⟨pos, eff, stopped⟩ := q
    cases stopped with
    | true => 
      rw [hs]
      exact ⟨h1, fun h => by cases h⟩
    | false =>
      obtain ⟨g1, g2, g3⟩ := h2 rfl
      simp only at g1 g2 g3 h1
      subst g1
      have hd := g2 n (le_refl _)
      by_cases hsk : ((d n .finished).isSome || skip n) = true
      · have e : s = (skip_conf P (posOf P n 0), eff, false) := by rw [hs]; unfold confBody; simp [hsk]
        rw [e]
        refine ⟨h1, fun _ => ⟨?_, fun c hc => g2 c (by omega), fun c hc hk => ?_⟩⟩
        · rw [skip_conf_eq]; unfold posOf; ring
        · rcases Nat.lt_succ_iff_lt_or_eq.1 hc with hc | rfl
          · exact g3 c hc hk
          · rw [hk, Bool.or_false] at hsk
            show (exec d eff.flatten c .finished).isSome
            rw [hd]; exact hsk
      · have hfin : d n .finished = none := by
          rw [Bool.not_eq_true, Bool.or_eq_false_iff] at hsk
          exact Option.not_isSome_iff_eq_none.1 (by rw [hsk.1]; decide)
        have hset : setup_conf P (posOf P n 0) = posOf P n 0 := by unfold setup_conf; rw [ok.noTransf]; rfl
        set d1 := exec d eff.flatten with hd1
        obtain ⟨k1, k2, k3⟩ := safe_keep h1.final n ((congrFun hd _).trans hfin) [Effect.create n .nTrials] (by
          intro e he; rw [List.mem_singleton] at he; subst he; exact ⟨rfl, by simp [target], by simp [target]⟩)
        cases hr : runConf P n (d n .partialData) (posOf P n 0) with
        | none =>
          have e : s = (posOf P n 0, eff ++ [[Effect.create n .nTrials]], true) := by rw [hs]; unfold confBody; simp [hsk, hset, hr]
          rw [e]
          refine ⟨?_, fun h => by cases h⟩
          show Safe _ d (eff ++ [[Effect.create n .nTrials]]).flatten
          rw [List.flatten_append, List.flatten_singleton]
          exact h1.append k1
        | some r =>
          obtain ⟨pos', er⟩ := r
          have e : s = (pos', eff ++ [[Effect.create n .nTrials]] ++ er, false) := by rw [hs]; unfold confBody; simp [hsk, hset, hr]
          rw [e]
          have hp : (exec d1 [Effect.create n .nTrials]) n .partialData = d n .partialData := by
            show exec d1 [Effect.create n .nTrials] n .partialData = _
            exact k3.trans (congrFun hd _)
          obtain ⟨r1, r2, r3, r4⟩ := runConf_safe ok ha n (exec d1 [Effect.create n .nTrials]) k1.final k2 pos' er (by rw [hp]; exact hr)
          have hfl : (eff ++ [[Effect.create n .nTrials]] ++ er).flatten = eff.flatten ++ ([Effect.create n .nTrials] ++ er.flatten) := by
            rw [List.flatten_append, List.flatten_append, List.flatten_singleton, List.append_assoc]
          simp only [hfl]
          have hoth : ∀ c, c ≠ n → exec d (eff.flatten ++ ([Effect.create n .nTrials] ++ er.flatten)) c = d1 c := by
            intro c hc
            rw [exec_append]
            refine exec_folder _ _ n ?_ c hc
            intro x hx
            rcases List.mem_append.1 hx with hx | hx
            · rw [List.mem_singleton] at hx; subst hx; rfl
            · exact r4 x hx
          refine ⟨h1.append (k1.append r2), fun _ => ⟨r1, fun c hc => ?_, fun c hc hk => ?_⟩⟩
          · rw [hoth c (by omega)]; exact g2 c (by omega)
          · rcases Nat.lt_succ_iff_lt_or_eq.1 hc with hc | rfl
            · rw [hoth c (by omega)]; exact g3 c hc hk
            · rw [exec_append, exec_append]; exact r3

theorem job_inv (ok : P.Ok) (ha : P.avg = true) {d d' : Disk} (h : Inv P d) (j : Job P d d') : Inv P d' := by
  obtain ⟨skip, k, rfl⟩ := j
  exact (confs_safe ok ha skip d h P.nConfs).1 k

theorem after_inv (ok : P.Ok) (ha : P.avg = true) {d d' : Disk} (h : Inv P d) (j : After (Job P) d d') : Inv P d' := by
  induction j with
  | start => exact h
  | job _ j ih => exact job_inv ok ha ih j

theorem fresh_inv {d : Disk} (h : Fresh d) : Inv P d := fun c => ⟨.inl (h c).1, fun h' => absurd (h c).2 h'⟩

/-- **C65**.  Averaging the hits.  Start from folders where nothing was done, and run any number of jobs, each skipping any configuration, interrupted at any moment, even while
writing a file.  When the folder of a configuration is marked as finished, its output files contain exactly what an only, uninterrupted job would have written: the
average over all hits, each with the random numbers fixed by its number and that of the configuration, whatever was skipped. -/
theorem C65_resume (ok : P.Ok) (ha : P.avg = true) {d0 d : Disk} (h0 : Fresh d0) (hd : After (Job P) d0 d) (c : Nat) (hf : d c .finished ≠ none) (m : Fin P.nC) :
    d c (.out (P.name m)) = some (outAvg P c (P.name m)) := (after_inv ok ha (fresh_inv h0) hd c).2 hf m

/-- **C65**.  Averaging the hits: a job that is not interrupted marks as finished all the configurations it does not skip, after any history of interrupted jobs, if the file of
partial data of no configuration was left cut. -/
theorem C65_completes (ok : P.Ok) (ha : P.avg = true) {d0 d : Disk} (h0 : Fresh d0) (hd : After (Job P) d0 d)
    (hp : ∀ c, d c .partialData = none ∨ ∃ n ≤ P.nHits, d c .partialData = some (partialBytes P n (sumHits P c n))) (skip : Nat → Bool) (c : Nat) (hc : c < P.nConfs) (hk : skip c = false) :
    exec d (effects P skip d).flatten c .finished ≠ none := by
  have inv := after_inv ok ha (fresh_inv h0) hd
  have hstop : ∀ n, ((List.range n).foldl (confBody P skip d) (0, [], false)).2.2 = false := by
    intro n
    induction n with
    | zero => rfl
    | succ n ih =>
      rw [List.range_succ, List.foldl_append, List.foldl_cons, List.foldl_nil]
      generalize (List.range n).foldl (confBody P skip d) (0, [], false) = q at *
      obtain ⟨pos, eff, stopped⟩ := q
      simp only at ih
      subst ih
      unfold confBody
      simp only [Bool.false_eq_true, if_false]
      split
      · rfl
      · have : ∃ r, runConf P n (d n .partialData) (setup_conf P pos) = some r := by
          unfold runConf
          rcases hp n with h | ⟨k, hk, h⟩
          · rw [h]; exact ⟨_, rfl⟩
          · rw [h, C65_partial_data P k (by have := ok.hits; omega) (sumHits P n k) (zero P) (sumHits_len ok n k) _ (List.prefix_refl _), if_pos rfl]
            exact ⟨_, rfl⟩
        obtain ⟨⟨pos', e⟩, hr⟩ := this
        rw [hr]
  have := ((confs_safe ok ha skip d inv P.nConfs).2 (hstop _)).2.2 c hc hk
  unfold effects
  rw [process_eq]
  exact Option.isSome_iff_ne_none.1 this

end Nissa.Resume
