import Verif.Ib.PropsResume2

/-! # C65: resuming an interrupted run, not averaging the hits; when it fails -/

set_option linter.all false

namespace Nissa.Resume

variable {P : Plan}

/-- every prefix of the list of blocks keeps the property -/
def TSafe (I : Disk → Prop) (d : Disk) (l : List (List Effect)) : Prop := ∀ k, I (exec d (l.take k).flatten)

theorem TSafe.append {I : Disk → Prop} {d : Disk} {l l' : List (List Effect)} (h : TSafe I d l) (h' : TSafe I (exec d l.flatten) l') : TSafe I d (l ++ l') := by
  intro k
  rw [List.take_append]
  by_cases hk : k ≤ l.length
  · rw [show k - l.length = 0 by omega]; simpa using h k
  · rw [List.take_of_length_le (by omega), List.flatten_append, exec_append]; exact h' _

theorem TSafe.final {I : Disk → Prop} {d : Disk} {l : List (List Effect)} (h : TSafe I d l) : I (exec d l.flatten) := by
  have := h l.length; rwa [List.take_length] at this

theorem TSafe.nil {I : Disk → Prop} {d : Disk} (h : I d) : TSafe I d [] := by intro k; simpa [exec] using h

theorem TSafe.single {I : Disk → Prop} {d : Disk} {e : List Effect} (h : I d) (h' : I (exec d e)) : TSafe I d [e] := by
  intro k
  cases k with
  | zero => exact h
  | succ k => simpa using h'

/-- the contraction of a hit alone -/
def oneHit (P : Plan) (c n : Nat) : Contr P := fun m => P.contract c (rndAt P (posOf P c n)) m (zero P m)

/-- folder not finished with `n` hits done -/
def Done (P : Plan) (c n : Nat) (fs : File → Option (List UInt8)) : Prop :=
  fs .finished = none ∧ (n = 0 ∧ fs .partialData = none ∨
    ∃ k, n = k + 1 ∧ fs .partialData = some (partialBytes P (k + 1) (oneHit P c k)) ∧ ∀ m, fs (.out (P.name m)) = some (outHits P c (P.name m) (k + 1)))

def TInvC (P : Plan) (c : Nat) (fs : File → Option (List UInt8)) : Prop :=
  (∃ n ≤ P.nHits, Done P c n fs) ∨ fs .finished ≠ none ∧ ∀ m, fs (.out (P.name m)) = some (outHits P c (P.name m) P.nHits)

def TInv (P : Plan) (d : Disk) : Prop := ∀ c, TInvC P c (d c)

theorem oneHit_len (ok : P.Ok) (c n : Nat) (m : Fin P.nC) : (oneHit P c n m).length = P.sz m := ok.len _ _ _ _ (zero_len m)

theorem remove_done {c n : Nat} {d : Disk} (h : Done P c n (d c)) : Done P c n (exec d [Effect.remove c .nTrials] c) := by
  have e : ∀ f, f ≠ .nTrials → exec d [Effect.remove c .nTrials] c f = d c f := fun f hf => exec_other d _ c f (by simp [target]; exact fun h => hf h.symm)
  unfold Done
  rw [e _ (by simp), e _ (by simp)]
  simp only [fun m : Fin P.nC => e (.out (P.name m)) (by simp)]
  exact h

theorem create_done {c n : Nat} {d : Disk} (h : Done P c n (d c)) : Done P c n (exec d [Effect.create c .nTrials] c) := by
  have e : ∀ f, f ≠ .nTrials → exec d [Effect.create c .nTrials] c f = d c f := fun f hf => exec_other d _ c f (by simp [target]; exact fun h => hf h.symm)
  unfold Done
  rw [e _ (by simp), e _ (by simp)]
  simp only [fun m : Fin P.nC => e (.out (P.name m)) (by simp)]
  exact h

/-- block of a hit -/
theorem hit_done (ha : P.avg = false) (c i : Nat) (d : Disk) (h : Done P c i (d c)) :
    Done P c (i + 1) (exec d (print_contr P c i (rndAt P (posOf P c i)) (oneHit P c i) ++ writePartialData P c (i + 1) (oneHit P c i) ++ [Effect.remove c .nTrials]) c) := by
  rw [exec_append]
  refine remove_done ?_
  rw [exec_append]
  obtain ⟨hf, hp⟩ := h
  set d1 := exec d (print_contr P c i (rndAt P (posOf P c i)) (oneHit P c i)) with hd1
  have hf1 : d1 c .finished = none := by
    rw [hd1, exec_other, hf]
    intro e he heq
    obtain ⟨nm, hn⟩ := print_target P c i _ _ e he
    rw [hn] at heq; injection heq with _ h; injection h
  have hw : ∀ f, f ≠ .partialData → exec d1 (writePartialData P c (i + 1) (oneHit P c i)) c f = d1 c f := by
    intro f hf
    refine exec_other _ _ _ _ fun e he heq => ?_
    rw [writePartial_target _ _ _ e he] at heq
    injection heq with _ h; exact hf h.symm
  refine ⟨by rw [hw _ (by simp)]; exact hf1, .inr ⟨i, rfl, ?_, fun m => ?_⟩⟩
  · unfold writePartialData
    rw [exec_cons, exec_putAll (apply d1 (.create c .partialData)) _ _ _ [] (setFile_same _ _ _ _), List.nil_append]
  · rw [hw _ (by simp), hd1, print_exec, ha]
    have hsec : ((List.finRange P.nC).flatMap fun m' => if P.name m' = P.name m then P.text m' (if false = true then P.nHits else 1)
        (if false = true then none else some (rndAt P (posOf P c i))) (oneHit P c i m') else []) = section' P c (P.name m) i := rfl
    rw [hsec]
    have hs : outHits P c (P.name m) (i + 1) = outHits P c (P.name m) i ++ section' P c (P.name m) i := by
      unfold outHits; rw [List.range_succ, List.flatMap_append, List.flatMap_singleton]
    rw [hs]
    rcases hp with ⟨rfl, -⟩ | ⟨k, rfl, -, ho⟩
    · simp [outHits]
    · rw [if_pos ⟨rfl, by omega⟩, ho m, Option.getD_some]

theorem hits_tidy (ok : P.Ok) (ha : P.avg = false) (c n : Nat) (d : Disk) (h : Done P c n (d c)) (contr : Contr P) (i : Nat) :
    let s := (List.range i).foldl (hitBody P c n) ⟨posOf P c 0, ⟨[], none, []⟩, contr, []⟩
    s.pos = posOf P c i ∧ (∀ k, ∃ j ≤ max i n, Done P c j (exec d (s.eff.take k).flatten c)) ∧ Done P c (max i n) (exec d s.eff.flatten c) ∧ ∀ e ∈ s.eff.flatten, (target e).1 = c := by
  induction i with
  | zero => 
    refine ⟨rfl, fun k => ⟨n, by simp, ?_⟩, ?_, by simp⟩
    · simpa [exec] using h
    · simpa [exec] using h
  | succ i ih =>
    intro s
    obtain ⟨h1, h2, h3, h5⟩ := ih
    have hs : s = hitBody P c n ((List.range i).foldl (hitBody P c n) ⟨posOf P c 0, ⟨[], none, []⟩, contr, []⟩) i := by
      show (List.range (i + 1)).foldl _ _ = _
      rw [List.range_succ, List.foldl_append]; rfl
    generalize (List.range i).foldl (hitBody P c n) ⟨posOf P c 0, ⟨[], none, []⟩, contr, []⟩ = q at *
    have fin : ∀ (b : List Effect), (∀ e ∈ b, (target e).1 = c) → s.pos = posOf P c (i + 1) → s.eff = q.eff ++ [b] → Done P c (max (i + 1) n) (exec (exec d q.eff.flatten) b c) →
        s.pos = posOf P c (i + 1) ∧ (∀ k, ∃ j ≤ max (i + 1) n, Done P c j (exec d (s.eff.take k).flatten c)) ∧ Done P c (max (i + 1) n) (exec d s.eff.flatten c) ∧ ∀ e ∈ s.eff.flatten, (target e).1 = c := by
      intro b hb hp he hd
      have hd' : Done P c (max (i + 1) n) (exec d s.eff.flatten c) := by rw [he, List.flatten_append, List.flatten_singleton, exec_append]; exact hd
      refine ⟨hp, fun k => ?_, hd', ?_⟩
      · by_cases hk : k ≤ q.eff.length
        · obtain ⟨j, hj, hj'⟩ := h2 k
          refine ⟨j, by omega, ?_⟩
          rw [he, List.take_append, show k - q.eff.length = 0 by omega]
          simpa using hj'
        · refine ⟨_, le_refl _, ?_⟩
          rw [List.take_of_length_le (by rw [he]; simp; omega)]
          exact hd'
      · intro e hee
        rw [he, List.flatten_append, List.flatten_singleton, List.mem_append] at hee
        exact hee.elim (h5 e) (hb e)
    by_cases hsk : i < n
    · refine fin [.remove c .nTrials] (by simp [target]) ?_ ?_ ?_
      · rw [hs]; unfold hitBody; simp only [hsk, decide_true, if_true]; rw [start_hit_pos, h1, posOf_succ]
      · rw [hs]; unfold hitBody; simp only [hsk, decide_true, if_true]
      · rw [show max (i + 1) n = max i n by omega]
        exact remove_done h3
    · have e : s = ⟨posOf P c (i + 1), rndAt P (posOf P c i), oneHit P c i, q.eff ++ [print_contr P c i (rndAt P (posOf P c i)) (oneHit P c i) ++
          writePartialData P c (i + 1) (oneHit P c i) ++ [.remove c .nTrials]]⟩ := by
        rw [hs]
        unfold hitBody
        simp only [hsk, decide_false, Bool.false_eq_true, if_false, ha]
        rw [start_hit_pos, h1, posOf_succ, start_hit_rnd]
        rfl
      refine fin (print_contr P c i (rndAt P (posOf P c i)) (oneHit P c i) ++ writePartialData P c (i + 1) (oneHit P c i) ++ [Effect.remove c .nTrials]) ?_ (by rw [e]) (by rw [e]) ?_
      · intro x hx
        rw [List.mem_append, List.mem_append, List.mem_singleton] at hx
        rcases hx with (hx | hx) | rfl
        · obtain ⟨nm, hn⟩ := print_target P c i _ _ x hx
          rw [hn]
        · rw [writePartial_target _ _ _ x hx]
        · rfl
      · rw [show max (i + 1) n = i + 1 by omega]
        rw [show max i n = i by omega] at h3
        exact hit_done ha c i _ h3

theorem runConf_tidy (ok : P.Ok) (ha : P.avg = false) (hh : 0 < P.nHits) (c n : Nat) (hn : n ≤ P.nHits) (d : Disk) (h : Done P c n (d c)) :
    ∃ e, runConf P c (d c .partialData) (posOf P c 0) = some (posOf P (c + 1) 0, e) ∧ (∀ k, TInvC P c (exec d (e.take k).flatten c)) ∧
      exec d e.flatten c .finished ≠ none ∧ ∀ x ∈ e.flatten, (target x).1 = c := by
  have hload : ∃ contr, maybeLoadPartialData P (d c .partialData) (zero P) = some (n, contr) := by
    rcases h.2 with ⟨rfl, h0⟩ | ⟨k, rfl, h0, -⟩
    · exact ⟨_, by rw [h0]; rfl⟩
    · refine ⟨oneHit P c k, ?_⟩
      rw [h0, C65_partial_data P (k + 1) (by have := ok.hits; omega) (oneHit P c k) (zero P) (oneHit_len ok c k) _ (List.prefix_refl _), if_pos rfl]
  obtain ⟨contr, hl⟩ := hload
  obtain ⟨h1, h2, h3, h5⟩ := hits_tidy ok ha c n d h contr P.nHits
  unfold runConf
  rw [hl]
  simp only [Option.bind_eq_bind, Option.bind_some, Option.pure_def]
  generalize (List.range P.nHits).foldl (hitBody P c n) ⟨posOf P c 0, ⟨[], none, []⟩, contr, []⟩ = q at *
  rw [show max P.nHits n = P.nHits by omega] at h2 h3
  set l := (if P.avg = true then print_contr P c 0 q.rnd q.contr else []) ++ [Effect.create c .finished] ++ (if P.preserve = true then [] else [Effect.remove c .partialData]) with hlst
  have hl : l = [Effect.create c .finished] ++ (if P.preserve = true then [] else [Effect.remove c .partialData]) := by
    rw [hlst, ha]; simp
  have hend : ∀ d1 : Disk, exec d1 l c .finished = some [] ∧ ∀ m : Fin P.nC, exec d1 l c (.out (P.name m)) = d1 c (.out (P.name m)) := by
    intro d1
    rw [hl, exec_append]
    have e1 : exec d1 [Effect.create c .finished] c .finished = some [] := setFile_same _ _ _ _
    refine ⟨?_, fun m => ?_⟩
    · rw [exec_other _ _ c .finished, e1]
      cases P.preserve <;> simp [target]
    · rw [exec_other _ _ c _, exec_other _ _ c _]
      · simp [target]
      · cases P.preserve <;> simp [target]
  have hfin : ∀ m, exec d (q.eff ++ [l]).flatten c (.out (P.name m)) = some (outHits P c (P.name m) P.nHits) := by
    intro m
    rw [List.flatten_append, List.flatten_singleton, exec_append, (hend _).2]
    rcases h3.2 with ⟨h0, -⟩ | ⟨k, hk, -, ho⟩
    · omega
    · rw [ho m, hk]
  have hf : exec d (q.eff ++ [l]).flatten c .finished ≠ none := by
    rw [List.flatten_append, List.flatten_singleton, exec_append, (hend _).1]; simp
  refine ⟨q.eff ++ [l], by rw [h1, posOf_next], fun k => ?_, hf, ?_⟩
  · by_cases hk : k ≤ q.eff.length
    · obtain ⟨j, hj, hj'⟩ := h2 k
      refine .inl ⟨j, hj, ?_⟩
      rw [List.take_append, show k - q.eff.length = 0 by omega]
      simpa using hj'
    · rw [List.take_of_length_le (by simp; omega)]
      exact .inr ⟨hf, hfin⟩
  · intro x hx
    rw [List.flatten_append, List.flatten_singleton, List.mem_append] at hx
    rcases hx with hx | hx
    · exact h5 x hx
    · rw [hl] at hx
      cases hp : P.preserve <;> rw [hp] at hx <;> simp at hx
      · rcases hx with rfl | rfl <;> rfl
      · subst hx; rfl

theorem confs_tidy (ok : P.Ok) (ha : P.avg = false) (hh : 0 < P.nHits) (skip : Nat → Bool) (d : Disk) (h : TInv P d) (n : Nat) :
    let s := (List.range n).foldl (confBody P skip d) (0, [], false)
    TSafe (TInv P) d s.2.1 ∧ s.2.2 = false ∧ s.1 = posOf P n 0 ∧ (∀ c, n ≤ c → exec d s.2.1.flatten c = d c) ∧
      ∀ c < n, skip c = false → exec d s.2.1.flatten c .finished ≠ none := by
  induction n with
  | zero => exact ⟨TSafe.nil h, rfl, by simp [posOf], fun _ _ => rfl, by omega⟩
  | succ n ih =>
    intro s
    obtain ⟨h1, h2, g1, g2, g3⟩ := ih
    have hs : s = confBody P skip d ((List.range n).foldl (confBody P skip d) (0, [], false)) n := by
      show (List.range (n + 1)).foldl _ _ = _
      rw [List.range_succ, List.foldl_append]; rfl
    generalize (List.range n).foldl (confBody P skip d) (0, [], false) = q at *
    obtain ⟨pos, eff, stopped⟩ := q
    simp only at g1 g2 g3 h1 h2
    subst g1 h2
    have hd := g2 n (le_refl _)
    by_cases hsk : ((d n .finished).isSome || skip n) = true
    · have e : s = (skip_conf P (posOf P n 0), eff, false) := by rw [hs]; unfold confBody; simp [hsk]
      rw [e]
      refine ⟨h1, rfl, ?_, fun c hc => g2 c (by omega), fun c hc hk => ?_⟩
      · rw [skip_conf_eq]; unfold posOf; ring
      · rcases Nat.lt_succ_iff_lt_or_eq.1 hc with hc | rfl
        · exact g3 c hc hk
        · rw [hk, Bool.or_false] at hsk
          show exec d eff.flatten c .finished ≠ none
          rw [hd]; exact Option.isSome_iff_ne_none.1 hsk
    · have hfin : d n .finished = none := by
        rw [Bool.not_eq_true, Bool.or_eq_false_iff] at hsk
        exact Option.not_isSome_iff_eq_none.1 (by rw [hsk.1]; decide)
      have hset : setup_conf P (posOf P n 0) = posOf P n 0 := by unfold setup_conf; rw [ok.noTransf]; rfl
      obtain ⟨j, hj, hdone⟩ : ∃ j ≤ P.nHits, Done P n j (d n) := (h n).resolve_right fun h' => h'.1 hfin
      set d1 := exec d eff.flatten with hd1
      have hdone2 : Done P n j (exec d1 [Effect.create n .nTrials] n) := create_done (by rw [hd]; exact hdone)
      obtain ⟨er, r1, r2, r3, r4⟩ := runConf_tidy ok ha hh n j hj (exec d1 [Effect.create n .nTrials]) hdone2
      have hp : exec d1 [Effect.create n .nTrials] n .partialData = d n .partialData := by
        rw [exec_other _ _ n .partialData (by simp [target])]
        exact congrFun hd _
      rw [hp] at r1
      have e : s = (posOf P (n + 1) 0, eff ++ [[Effect.create n .nTrials]] ++ er, false) := by rw [hs]; unfold confBody; simp [hsk, hset, r1]
      rw [e]
      have hfl : (eff ++ [[Effect.create n .nTrials]] ++ er).flatten = eff.flatten ++ ([Effect.create n .nTrials] ++ er.flatten) := by
        rw [List.flatten_append, List.flatten_append, List.flatten_singleton, List.append_assoc]
      have oth : ∀ (d2 : Disk) (l : List Effect), (∀ x ∈ l, (target x).1 = n) → TInv P d2 → TInvC P n (exec d2 l n) → TInv P (exec d2 l) := by
        intro d2 l hl h2 hn c
        by_cases hc : c = n
        · subst hc; exact hn
        · rw [exec_folder d2 l n hl c hc]; exact h2 c
      have i1 : TInv P (exec d1 [Effect.create n .nTrials]) := oth d1 _ (by simp [target]) h1.final (.inl ⟨j, hj, hdone2⟩)
      refine ⟨?_, rfl, rfl, fun c hc => ?_, fun c hc hk => ?_⟩
      · rw [List.append_assoc]
        refine h1.append ?_
        refine (TSafe.single h1.final i1).append ?_
        intro k
        rw [List.flatten_singleton, ← hd1]
        refine oth _ _ ?_ i1 (r2 k)
        intro x hx
        refine r4 x ?_
        obtain ⟨y, hy, hxy⟩ := List.mem_flatten.1 hx
        exact List.mem_flatten.2 ⟨y, List.mem_of_mem_take hy, hxy⟩
      · simp only [hfl]
        rw [exec_append, ← hd1]
        rw [exec_folder d1 _ n _ c (by omega)]
        · exact g2 c (by omega)
        · intro x hx
          rcases List.mem_append.1 hx with hx | hx
          · rw [List.mem_singleton] at hx; subst hx; rfl
          · exact r4 x hx
      · simp only [hfl]
        rcases Nat.lt_succ_iff_lt_or_eq.1 hc with hc | rfl
        · rw [exec_append, ← hd1, exec_folder d1 _ n _ c (by omega)]
          · exact g3 c hc hk
          · intro x hx
            rcases List.mem_append.1 hx with hx | hx
            · rw [List.mem_singleton] at hx; subst hx; rfl
            · exact r4 x hx
        · rw [exec_append, exec_append]; exact r3

/-- **C65**.  Not averaging the hits: after any number of jobs interrupted between the hits (for example for the wall time), skipping any configuration, the output files of a finished
configuration contain a section for each hit, in order and each once, and a job not interrupted finishes all the configurations it does not skip. -/
theorem C65_resume_hits (ok : P.Ok) (ha : P.avg = false) (hh : 0 < P.nHits) {d0 d : Disk} (h0 : Fresh d0) (hd : After (JobTidy P) d0 d) :
    (∀ c, d c .finished ≠ none → ∀ m, d c (.out (P.name m)) = some (outHits P c (P.name m) P.nHits)) ∧
    ∀ skip c, c < P.nConfs → skip c = false → exec d (effects P skip d).flatten c .finished ≠ none := by
  have inv : TInv P d := by
    induction hd with
    | start => exact fun c => .inl ⟨0, by omega, (h0 c).2, .inl ⟨rfl, (h0 c).1⟩⟩
    | job _ j ih =>
      obtain ⟨skip, k, rfl⟩ := j
      exact (confs_tidy ok ha hh skip _ ih P.nConfs).1 k
  refine ⟨fun c hf m => ?_, fun skip c hc hk => (confs_tidy ok ha hh skip d inv P.nConfs).2.2.2.2 c hc hk⟩
  rcases inv c with ⟨n, -, h1, -⟩ | h1
  · exact absurd h1 hf
  · exact h1.2 m

/-! ### When it fails -/

theorem runConf_target (c : Nat) (file : Option (List UInt8)) (pos pos' : Nat) (e : List (List Effect)) (h : runConf P c file pos = some (pos', e)) : ∀ x ∈ e.flatten, (target x).1 = c := by
  unfold runConf at h
  cases hl : maybeLoadPartialData P file (zero P) with
  | none => rw [hl] at h; cases h
  | some r =>
    obtain ⟨n, contr⟩ := r
    rw [hl] at h
    simp only [Option.bind_eq_bind, Option.bind_some, Option.pure_def, Option.some.injEq, Prod.mk.injEq] at h
    obtain ⟨-, rfl⟩ := h
    have hpr : ∀ i rnd (contr : Contr P), ∀ x ∈ print_contr P c i rnd contr, (target x).1 = c := by
      intro i rnd contr x hx
      obtain ⟨nm, hn⟩ := print_target P c i rnd contr x hx
      rw [hn]
    have hits : ∀ i, ∀ x ∈ ((List.range i).foldl (hitBody P c n) ⟨pos, ⟨[], none, []⟩, contr, []⟩).eff.flatten, (target x).1 = c := by
      intro i
      induction i with
      | zero => simp
      | succ i ih =>
        rw [List.range_succ, List.foldl_append, List.foldl_cons, List.foldl_nil]
        generalize (List.range i).foldl (hitBody P c n) ⟨pos, ⟨[], none, []⟩, contr, []⟩ = q at *
        unfold hitBody
        simp only
        intro x hx
        split at hx
        · rw [List.flatten_append, List.flatten_singleton, List.mem_append, List.mem_singleton] at hx
          rcases hx with hx | rfl
          · exact ih x hx
          · rfl
        · rw [List.flatten_append, List.flatten_singleton, List.mem_append, List.mem_append, List.mem_append, List.mem_singleton] at hx
          rcases hx with hx | (hx | hx) | rfl
          · exact ih x hx
          · split at hx
            · simp at hx
            · exact hpr _ _ _ x hx
          · rw [writePartial_target _ _ _ x hx]
          · rfl
    intro x hx
    rw [List.flatten_append, List.flatten_singleton, List.mem_append, List.mem_append, List.mem_append] at hx
    rcases hx with hx | (hx | hx) | hx
    · exact hits _ x hx
    · split at hx
      · exact hpr _ _ _ x hx
      · simp at hx
    · rw [List.mem_singleton] at hx; subst hx; rfl
    · split at hx
      · simp at hx
      · rw [List.mem_singleton] at hx; subst hx; rfl

/-- **C65**.  An interruption while the file of partial data is being rewritten (`writePartialData` truncates the old file first) loses all the hits done, and no later job ever finishes the
configuration: it stops with an error as long as the cut file is there. -/
theorem C65_violated_cut (P : Plan) (ok : P.Ok) (ha : P.avg = true) (c n k : Nat) (hc : c < P.nConfs) (hn : n ≤ P.nHits) (d : Disk)
    (hk : k < (partialBytes P n (sumHits P c n)).length) (hcut : d c .partialData = some ((partialBytes P n (sumHits P c n)).take k)) (hf : d c .finished = none)
    {d' : Disk} (hd : After (Job P) d d') : d' c .finished = none ∧ d' c .partialData = d c .partialData := by
  have crash : maybeLoadPartialData P (d c .partialData) (zero P) = none := by
    rw [hcut, C65_partial_data P n (by have := ok.hits; omega) (sumHits P c n) (zero P) (sumHits_len ok c n) _ (List.take_prefix _ _), if_neg]
    intro h
    have := congrArg List.length h
    rw [List.length_take] at this
    omega
  have crash' : ∀ pos, runConf P c (d c .partialData) pos = none := by intro pos; unfold runConf; rw [crash]; rfl
  have step : ∀ d1 : Disk, d1 c .finished = none → d1 c .partialData = d c .partialData → ∀ skip n, ∀ e ∈ ((List.range n).foldl (confBody P skip d1) (0, [], false)).2.1.flatten,
      target e = (c, .nTrials) ∨ (target e).1 ≠ c := by
    intro d1 h1 h2 skip n
    induction n with
    | zero => simp
    | succ n ih =>
      rw [List.range_succ, List.foldl_append, List.foldl_cons, List.foldl_nil]
      generalize (List.range n).foldl (confBody P skip d1) (0, [], false) = q at *
      obtain ⟨pos, eff, stopped⟩ := q
      unfold confBody
      simp only
      split
      · exact ih
      · split
        · exact ih
        · have hnt : ∀ e ∈ (eff ++ [[Effect.create n .nTrials]]).flatten, target e = (c, .nTrials) ∨ (target e).1 ≠ c := by
            intro e he
            rw [List.flatten_append, List.flatten_singleton, List.mem_append, List.mem_singleton] at he
            rcases he with he | rfl
            · exact ih e he
            · by_cases hcn : n = c
              · subst hcn; exact .inl rfl
              · exact .inr hcn
          split
          · exact hnt
          · rename_i pos' er hr
            by_cases hcn : n = c
            · subst hcn
              rw [h2, crash'] at hr
              cases hr
            · intro e he
              rw [List.flatten_append, List.mem_append] at he
              rcases he with he | he
              · exact hnt e he
              · refine .inr fun h => hcn ?_
                rw [← h]
                exact (runConf_target n _ _ pos' er hr e he).symm
  induction hd with
  | start => exact ⟨hf, rfl⟩
  | job _ j ih =>
    obtain ⟨skip, k, rfl⟩ := j
    obtain ⟨ih1, ih2⟩ := ih
    have hs := step _ ih1 ih2 skip P.nConfs
    constructor
    · rw [exec_other, ih1]
      intro e he heq
      rcases hs e (List.mem_of_mem_take he) with h | h <;> rw [heq] at h <;> simp at h
    · rw [exec_other, ih2]
      intro e he heq
      rcases hs e (List.mem_of_mem_take he) with h | h <;> rw [heq] at h <;> simp at h

end Nissa.Resume
