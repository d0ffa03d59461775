import Verif.Nice.PropsScript2

/-! # C75: every step of the evaluator stays inside a closed region -/

set_option linter.all false

namespace Nissa.Nice

variable {F : Type} {C E : Nat → Prop} {n x : Bool}

theorem tr_intRes {P : St F → Prop} (i : Int) : Tr C E n x P (intRes i : M F (Value F)) fun v s => VOk C E s v := by
  unfold intRes
  split
  · exact Tr.pure fun s _ => trivial
  · exact Tr.ub

theorem tr_boolRes {P : St F → Prop} (b : Bool) : Tr C E n x P (boolRes b : M F (Value F)) fun v s => VOk C E s v := Tr.pure fun s _ => trivial

theorem tr_intOp {P : St F → Prop} (op : Bop) (a b : Int) : Tr C E n x P (intOp op a b : M F (Value F)) fun v s => VOk C E s v := by
  cases op <;> unfold intOp <;> dsimp only <;> first | exact tr_intRes _ | exact tr_boolRes _ | skip
  · split
    · exact Tr.ub
    · exact tr_intRes _
  · split
    · exact Tr.ub
    · exact tr_intRes _

theorem tr_dblOp {P : St F → Prop} (O : Flt F) (op : Bop) (a b : F) : Tr C E n x P (dblOp O op a b) fun v s => VOk C E s v := by
  cases op <;> unfold dblOp <;> dsimp only <;> first | exact tr_boolRes _ | exact Tr.pure fun s _ => trivial | exact Tr.err

theorem tr_strOp {P : St F → Prop} (op : Bop) (a b : String) : Tr C E n x P (strOp op a b : M F (Value F)) fun v s => VOk C E s v := by
  cases op <;> unfold strOp <;> dsimp only <;> first | exact tr_boolRes _ | exact Tr.pure fun s _ => trivial | exact Tr.err

theorem tr_unsetOp {P : St F → Prop} (op : Bop) : Tr C E n x P (unsetOp op : M F (Value F)) fun v s => VOk C E s v := by
  cases op <;> unfold unsetOp <;> dsimp only <;> first | exact tr_boolRes _ | exact Tr.err

theorem tr_binop {P : St F → Prop} (O : Flt F) (op : Bop) (a b : Value F) : Tr C E n x P (binop O op a b) fun v s => VOk C E s v := by
  unfold binop
  split <;> try first | exact tr_intOp _ _ _ | exact tr_dblOp _ _ _ _ | exact tr_strOp _ _ _ | exact tr_unsetOp _
  split <;> first | exact tr_boolRes _ | exact Tr.err

theorem tr_unop {P : St F → Prop} (O : Flt F) (op : Uop) (a : Value F) : Tr C E n x P (unop O op a) fun v s => VOk C E s v := by
  unfold unop
  split <;> try first | exact tr_intRes _ | exact Tr.pure fun s _ => trivial | exact Tr.err
  split <;> first | exact tr_boolRes _ | exact Tr.err

theorem tr_popVal {P : St F → Prop} (O : Flt F) (op : Pop) (a : Value F) : Tr C E n x P (popVal O op a) fun v s => VOk C E s v := by
  unfold popVal
  split <;> first | exact tr_intRes _ | exact Tr.pure fun s _ => trivial | exact Tr.err

theorem tr_toBool {P : St F → Prop} (O : Flt F) (a : Value F) : Tr C E n x P (toBool O a) fun _ _ => True := by
  unfold toBool
  split <;> first | exact Tr.pure fun s _ => trivial | exact Tr.err

theorem tr_sub {P : St F → Prop} (l : List (Node F)) (i : Nat) : Tr C E n x P (sub l i) fun _ _ => True := by
  unfold sub
  split <;> first | exact Tr.pure fun s _ => trivial | exact Tr.ub

theorem tr_asDbl {P : St F → Prop} (O : Flt F) (v : Value F) : Tr C E n x P (asDbl O v) fun _ _ => True := by
  unfold asDbl
  split <;> first | exact Tr.pure fun s _ => trivial | exact Tr.err

theorem tr_asLhs (r : ER F) : Tr C E n x (fun s => ROk C E s r) (asLhs r) fun c s => COk C s c := by
  unfold asLhs
  split
  · rename_i c hc
    exact Tr.pure fun s h => h.1 c hc
  · exact Tr.err

theorem tr_ensure (v : Value F) : Tr C E n x (fun s => VOk C E s v) (ensureInitialized v) fun v s => VOk C E s v := by
  unfold ensureInitialized
  split
  · exact Tr.err
  · exact Tr.pure fun s h => h

theorem tr_asRhs (r : ER F) : Tr C E n x (fun s => ROk C E s r) (asRhs r) fun v s => VOk C E s v := by
  unfold asRhs
  split
  · rename_i c hc
    refine Tr.bind (ROk.mono C E r) (Tr.pre (fun s h => (h.1 c hc).1) (tr_read c)) fun v => Tr.pre (fun s h => h.2) (tr_ensure v)
  · split
    · rename_i v hv
      exact Tr.pure fun s h => h.2 v hv
    · exact Tr.ub

theorem tr_baseValue (r : ER F) : Tr C E n x (fun s => ROk C E s r) (baseValue r) fun v s => VOk C E s v := by
  unfold baseValue
  split
  · rename_i c hc
    exact Tr.pre (fun s h => (h.1 c hc).1) (tr_read c)
  · split
    · rename_i v hv
      exact Tr.pure fun s h => h.2 v hv
    · exact Tr.ub

theorem rok_val {s : St F} {v : Value F} (h : VOk C E s v) : ROk C E s ⟨none, some v⟩ := ⟨fun c hc => (by cases hc), fun w hw => by cases hw; exact h⟩
theorem rok_ref {s : St F} {c : Nat} (h : COk C s c) : ROk C E s (⟨some c, none⟩ : ER F) := ⟨fun c hc => by cases hc; exact h, fun w hw => by cases hw⟩
theorem rok_none {s : St F} : ROk C E s (ER.none_ : ER F) := ⟨fun c hc => (by cases hc), fun w hw => by cases hw⟩

theorem tr_found (b : ER F) (c : Nat) : Tr C E n x (fun s => COk C s c) (found b c) fun r s => ROk C E s r := by
  unfold found
  split
  · exact Tr.pure fun s h => rok_ref h
  · exact Tr.bind (COk.mono C c) (Tr.pre (fun s h => h.1) (tr_read c)) fun v => Tr.pure fun s h => rok_val h.2

theorem tr_set (mode : Mode) (l : ER F) (v : Value F) : Tr C E n x (fun s => ROk C E s l ∧ VOk C E s v) (set_ mode l v) fun _ _ => True := by
  unfold set_
  split
  · exact Tr.err
  · rename_i c hc
    split
    · exact Tr.pre (fun s h => ⟨(h.1.1 c hc).1, h.2⟩) (tr_write c v)
    · exact Tr.err

theorem tr_reads (l : List Nat) : Tr C E n x (fun s => CsOk C s l) (reads l : M F (List (Value F))) fun vs s => ∀ v ∈ vs, VOk C E s v := by
  induction l with
  | nil => exact Tr.pure fun s _ v hv => by cases hv
  | cons c l ih =>
    refine Tr.bind (CsOk.mono C _) (Tr.pre (fun s h => (h c List.mem_cons_self).1) (tr_read c)) fun v => Tr.bind ((CsOk.mono C _).and (VOk.mono C E v)) (Tr.pre (fun s h c hc => h.1 c (List.mem_cons_of_mem _ hc)) ih) fun vs => Tr.pure fun s h w hw => ?_
    rcases List.mem_cons.mp hw with h1 | h1
    · rw [h1]; exact h.1.2
    · exact h.2 w h1

theorem tr_ints {P : St F → Prop} (l : List (Value F)) (hP : Mono P) : Tr C E n x P (ints l : M F (List Int)) fun _ _ => True := by
  induction l with
  | nil => exact Tr.pure fun s _ => trivial
  | cons v l ih =>
    cases v <;> try exact Tr.err
    exact Tr.bind hP ih fun r => Tr.pure fun s _ => trivial

theorem tr_allocs (l : List (Value F)) : Tr C E n x (fun s => ∀ v ∈ l, VOk C E s v) (allocs l) fun cs s => CsOk C s cs := by
  have hm : ∀ l : List (Value F), Mono fun s => ∀ v ∈ l, VOk C E s v := fun l s s' h1 h2 h v hv => VOk.mono C E v s s' h1 h2 (h v hv)
  induction l with
  | nil => exact Tr.pure fun s _ c hc => by cases hc
  | cons v l ih =>
    refine Tr.bind (hm _) (Tr.pre (fun s h => h v List.mem_cons_self) (tr_alloc v)) fun c => Tr.bind ((hm _).and (COk.mono C c)) (Tr.pre (fun s h v hv => h.1 v (List.mem_cons_of_mem _ hv)) ih) fun cs => Tr.pure fun s h w hw => ?_
    rcases List.mem_cons.mp hw with h1 | h1
    · rw [h1]; exact h.1.2
    · exact h.2 w h1

theorem tr_hostSeq (args : List Nat) : Tr C E n x (fun s => CsOk C s args) (hostSeq args : M F (Value F)) fun v s => VOk C E s v := by
  unfold hostSeq
  split
  · exact Tr.err
  · refine Tr.bind (CsOk.mono C _) (tr_reads args) fun vs => Tr.pre (P' := fun _ => True) (fun _ _ => trivial) (Tr.bind (R := fun _ _ => True) Mono.true_ (tr_ints vs Mono.true_) fun p => Tr.bind (R := fun _ _ => True) (Mono.true_.and (Mono.const _)) ?_ fun q => ?_)
    · split <;> first | exact Tr.pure fun s _ => trivial | exact Tr.err
    · dsimp only
      split
      · exact Tr.err
      · split
        · exact Tr.ub
        · rename_i l hl
          refine Tr.pre (P' := fun _ => True) (fun s h => trivial) (Tr.bind Mono.true_ (Tr.pre (fun s h v hv => ?_) (tr_allocs _)) fun cs => Tr.pure fun s h => h.2)
          obtain ⟨i, _, hi⟩ := List.mem_map.mp hv
          rw [← hi]
          exact trivial

theorem tr_print (vs : List (Value F)) {P : St F → Prop} : Tr C E n x P (fun s => .ok .unset { s with out := s.out ++ vs } : M F (Value F)) fun v s => VOk C E s v := by
  intro s hi hc hp a s' h
  cases h
  refine ⟨⟨fun c v h1 h2 => VOk.mono C E v s _ le_rfl le_rfl (hi.cells c v h1 h2), hi.parent, hi.vars, hi.newC, hi.newE⟩, ⟨le_rfl, le_rfl, fun _ _ => rfl, rfl, fun _ _ _ => rfl, fun env h => ⟨[], by simpa using h⟩⟩, trivial⟩

theorem bind_assoc' {α β γ : Type} (m : M F α) (g : α → M F β) (k : β → M F γ) : ((m >>= g) >>= k) = m >>= fun a => g a >>= k := by
  funext s
  rw [bind_def, bind_def, bind_def]
  cases m s <;> rfl

/-- what is assumed of the recursive calls -/
structure RecOk (C E : Nat → Prop) (rec : Cmd F → M F (ER F)) : Prop where
  node : ∀ nd, Tr C E true true (fun _ => True) (rec (.node nd)) fun r s => ROk C E s r
  loop : ∀ a b c, Tr C E true true (fun _ => True) (rec (.loop a b c)) fun r s => ROk C E s r
  call : ∀ f args, Tr C E false false (fun s => VOk C E s f ∧ CsOk C s args) (rec (.call f args)) fun r s => ROk C E s r

section
variable {rec : Cmd F → M F (ER F)} (hr : RecOk C E rec)
include hr

theorem tr_eachEl (f : Nat) (l : List Nat) : Tr C E false false (fun s => C f ∧ CsOk C s l) (eachEl rec f l) fun _ _ => True := by
  induction l with
  | nil => exact Tr.pure fun s _ => trivial
  | cons c l ih =>
    refine Tr.bind ((Mono.const _).and (CsOk.mono C _)) (Tr.pre (fun s h => h.1) (tr_read f)) fun fv => Tr.bind (R := fun _ _ => True) (((Mono.const _).and (CsOk.mono C _)).and (VOk.mono C E fv)) ?_ fun _ => Tr.pre (fun s h => ⟨h.1.1.1, fun c hc => h.1.1.2 c (List.mem_cons_of_mem _ hc)⟩) ih
    refine Tr.post (Tr.pre (fun s h => ⟨h.2, fun c' hc' => ?_⟩) (hr.call fv [c])) (fun _ _ _ => trivial)
    rw [List.mem_singleton.mp hc']
    exact h.1.2 c List.mem_cons_self

theorem tr_callHost (O : Flt F) (h : Host) (args : List Nat) : Tr C E false false (fun s => CsOk C s args) (callHost O rec h args) fun v s => VOk C E s v := by
  have hmath : ∀ h : Host, Tr C E false false (fun s => CsOk C s args) (match args with
    | [a] => do
      let x ← asDbl O (← read a)
      pure (.dbl (O.math h x))
    | _ => err : M F (Value F)) fun v s => VOk C E s v := by
    intro h
    split
    · rename_i a
      exact Tr.bind (CsOk.mono C _) (Tr.pre (fun s h => (h a List.mem_cons_self).1) (tr_read a)) fun v => Tr.bind ((CsOk.mono C _).and (VOk.mono C E v)) (tr_asDbl O v) fun y => Tr.pure fun s _ => trivial
    · exact Tr.err
  cases h with
  | print => exact Tr.bind (CsOk.mono C _) (tr_reads args) fun vs => tr_print vs
  | makeVec => exact Tr.pure fun s h => h
  | seq => exact tr_hostSeq args
  | forEachEl =>
    unfold callHost
    dsimp only
    split
    · rename_i l f
      refine Tr.bind (CsOk.mono C _) (Tr.pre (fun s h => (h l List.mem_cons_self).1) (tr_read l)) fun v => ?_
      split
      · rename_i data
        exact Tr.bind ((CsOk.mono C _).and (VOk.mono C E _)) (Tr.pre (fun s h => ⟨(h.1 f (by simp)).1, h.2⟩) (tr_eachEl hr f data)) fun _ => Tr.pure fun s _ => trivial
      · exact Tr.err
    · exact Tr.err
  | pow =>
    unfold callHost
    dsimp only
    split
    · rename_i a b
      exact Tr.bind (CsOk.mono C _) (Tr.pre (fun s h => (h a (by simp)).1) (tr_read a)) fun v => Tr.bind ((CsOk.mono C _).and (VOk.mono C E v)) (tr_asDbl O v) fun y => Tr.bind (((CsOk.mono C _).and (VOk.mono C E v)).and (Mono.const _)) (Tr.pre (fun s h => (h.1.1 b (by simp)).1) (tr_read b)) fun w =>
        Tr.bind ((((CsOk.mono C _).and (VOk.mono C E v)).and (Mono.const _)).and (VOk.mono C E w)) (tr_asDbl O w) fun z => Tr.pure fun s _ => trivial
    · exact Tr.err
  | sqrt => exact hmath .sqrt
  | exp => exact hmath .exp
  | sin => exact hmath .sin
  | cos => exact hmath .cos
  | tan => exact hmath .tan

omit hr in
theorem tr_cur : Tr C E true x (fun _ => True) (cur : M F Nat) fun e s => EOk E s e := by
  intro s hi hc hp a s' h
  cases h
  exact ⟨hi, Rel.refl C x s, hc rfl⟩

omit hr in
theorem tr_bindPars (pars : List (Par F)) (args : List Nat) : Tr C E true true (fun s => CsOk C s args) (bindPars pars args : M F Unit) fun _ _ => True := by
  induction pars generalizing args with
  | nil => exact Tr.pure fun s _ => trivial
  | cons par pars ih =>
    cases args with
    | nil => exact Tr.pure fun s _ => trivial
    | cons arg args =>
      refine Tr.bind (R := fun c s => COk C s c) (CsOk.mono C _) ?_ fun arg' => ?_
      · split
        · refine Tr.bind (CsOk.mono C _) (Tr.pre (fun s h => (h arg List.mem_cons_self).1) (tr_read arg)) fun v => ?_
          split
          · exact Tr.pure fun s h => h.2.elim
          · exact Tr.err
        · exact Tr.pure fun s h => h arg List.mem_cons_self
      · have key : Tr C E true true (fun s => CsOk C s (arg :: args) ∧ COk C s arg') ((do
            let e ← cur
            (fun s => match s.envs[e]? with
              | none => .ub
              | some env => if (lookup env.vars par.1).isSome then .err else .ok () { s with envs := addVar s.envs e par.1 arg' }) : M F Unit)) fun _ _ => True := by
          intro s hi hc hp a s' h
          have h' : (match s.envs[s.cur]? with
              | none => Res.ub
              | some env => if (lookup env.vars par.1).isSome then Res.err else Res.ok () { s with envs := addVar s.envs s.cur par.1 arg' }) = Res.ok a s' := h
          split at h'
          · cases h'
          · split at h'
            · cases h'
            · cases h'
              obtain ⟨i, r⟩ := inv_addVar hi par.1 arg' hp.2
              exact ⟨i, r, trivial⟩
        have := Tr.bind (f := fun _ => bindPars pars args) (Q := fun _ _ => True) ((CsOk.mono C _).and (COk.mono C _)) key fun _ => Tr.pre (fun s h c hc => h.1.1 c (List.mem_cons_of_mem _ hc)) (ih args)
        intro s hi hc hp a s' h
        refine this s hi hc hp a s' ?_
        rw [← h]
        exact congrFun (bind_assoc' _ _ _) s

theorem tr_callFunction (O : Flt F) (f : Value F) (args : List Nat) : Tr C E false false (fun s => VOk C E s f ∧ CsOk C s args) (callFunction O rec f args) fun r s => ROk C E s r := by
  unfold callFunction
  split
  · rename_i pars body env
    split
    · exact Tr.err
    · refine tr_enter (some env) ((VOk.mono C E _).and (CsOk.mono C _)) (fun s h e he => by cases he; exact h.1) (ROk.mono C E) ?_
      exact Tr.bind ((VOk.mono C E _).and (CsOk.mono C _)) (Tr.pre (fun s h => h.2) (tr_bindPars pars args)) fun _ => Tr.pre (fun s _ => trivial) (hr.node body)
  · exact Tr.bind ((VOk.mono C E _).and (CsOk.mono C _)) (Tr.pre (fun s h => h.2) (tr_callHost hr O _ args)) fun v => Tr.pure fun s h => rok_val h.2
  · split
    · exact Tr.err
    · exact Tr.pure fun s h => rok_val h.2
  · exact Tr.err

theorem tr_evalArgs (l : List (String × Node F)) : Tr C E true true (fun _ => True) (evalArgs rec l) fun as s => CsOk C s (as.map (·.2)) := by
  induction l with
  | nil => exact Tr.pure fun s _ c hc => by cases hc
  | cons a l ih =>
    obtain ⟨name, e⟩ := a
    refine Tr.bind Mono.true_ (hr.node e) fun r => Tr.bind (Mono.true_.and (ROk.mono C E r)) (Tr.pre (fun s h => h.2) (tr_asRhs r)) fun v => Tr.bind ((Mono.true_.and (ROk.mono C E r)).and (VOk.mono C E v)) (Tr.pre (fun s h => h.2) (tr_alloc v)) fun c =>
      Tr.bind (((Mono.true_.and (ROk.mono C E r)).and (VOk.mono C E v)).and (COk.mono C c)) (Tr.pre (fun s h => trivial) ih) fun cs => Tr.pure fun s h w hw => ?_
    rcases List.mem_cons.mp hw with h1 | h1
    · rw [h1]; exact h.1.2
    · exact h.2 w h1

/-- the slots filled are inside the region -/
def SlotsOk (C : Nat → Prop) (s : St F) (l : List (Option Nat)) : Prop := ∀ c, some c ∈ l → COk C s c

omit hr in
theorem SlotsOk.mono (l : List (Option Nat)) : Mono fun s : St F => SlotsOk C s l := fun s s' h1 h2 h c hc => COk.mono C c s s' h1 h2 (h c hc)

omit hr in
theorem tr_pushVariadic (slots : List (Option Nat)) (arg : Nat) : Tr C E n x (fun s => SlotsOk C s slots ∧ COk C s arg) (pushVariadic slots arg : M F Unit) fun _ _ => True := by
  unfold pushVariadic
  split
  · rename_i c hc
    have hm : some c ∈ slots := List.mem_of_getLast? hc
    refine Tr.bind ((SlotsOk.mono _).and (COk.mono C _)) (Tr.pre (fun s h => (h.1 c hm).1) (tr_read c)) fun v => ?_
    split
    · rename_i l
      refine Tr.pre (fun s h => ⟨(h.1.1 c hm).1, fun c' hc' => ?_⟩) (tr_write c _)
      rcases List.mem_append.mp hc' with h1 | h1
      · exact h.2 c' h1
      · rw [List.mem_singleton.mp h1]; exact h.1.2
    · exact Tr.ub
  · exact Tr.ub

omit hr in
theorem tr_insertArgs (names : List String) (vr nm : Bool) (as : List (String × Nat)) (slots : List (Option Nat)) : Tr C E n x (fun s => CsOk C s (as.map (·.2)) ∧ SlotsOk C s slots) (insertArgs names vr nm as slots : M F _) fun l s => SlotsOk C s l := by
  induction as generalizing slots with
  | nil => exact Tr.pure fun s h => h.2
  | cons a as ih =>
    obtain ⟨name, arg⟩ := a
    have h0 : ∀ s : St F, CsOk C s (((name, arg) :: as).map (·.2)) → COk C s arg ∧ CsOk C s (as.map (·.2)) := fun s h => ⟨h arg (by simp), fun c hc => h c (by simp only [List.map_cons]; exact List.mem_cons_of_mem _ hc)⟩
    unfold insertArgs
    dsimp only
    generalize (if (name != "") = true then names.findIdx (· == name) else slots.findIdx (fun o => o.isNone)) = iPar
    split
    · exact Tr.pre (fun s h => ⟨(h0 s h.1).2, h.2⟩) (ih slots)
    · split
      · exact Tr.err
      · split
        · split
          · exact Tr.bind ((CsOk.mono C _).and (SlotsOk.mono _)) (Tr.pre (fun s h => ⟨h.2, (h0 s h.1).1⟩) (tr_pushVariadic slots arg)) fun _ => Tr.pre (fun s h => ⟨(h0 s h.1.1).2, h.1.2⟩) (ih slots)
          · exact Tr.err
        · refine Tr.pre (fun s h => ⟨(h0 s h.1).2, fun c hc => ?_⟩) (ih _)
          rcases List.mem_or_eq_of_mem_set hc with h1 | h1
          · exact h.2 c h1
          · cases h1; exact (h0 s h.1).1

theorem tr_fillDefaults (ds : List (Option (Node F))) (l : List (Option Nat)) : Tr C E true true (fun s => SlotsOk C s l) (fillDefaults rec ds l) fun cs s => CsOk C s cs := by
  induction ds generalizing l with
  | nil =>
    have : ∀ l, fillDefaults rec [] l = pure [] := fun l => by cases l with
      | nil => rfl
      | cons a l => cases a <;> rfl
    rw [this]
    exact Tr.pure fun s _ c hc => by cases hc
  | cons d ds ih =>
    cases l with
    | nil =>
      have : fillDefaults rec (d :: ds) [] = pure [] := by cases d <;> rfl
      rw [this]
      exact Tr.pure fun s _ c hc => by cases hc
    | cons a l =>
      cases a with
      | some c =>
        have : fillDefaults rec (d :: ds) (some c :: l) = (do
          let r ← fillDefaults rec ds l
          pure (c :: r)) := by cases d <;> rfl
        rw [this]
        refine Tr.bind (SlotsOk.mono _) (Tr.pre (fun s h c hc => h c (List.mem_cons_of_mem _ hc)) (ih l)) fun r => Tr.pure fun s h w hw => ?_
        rcases List.mem_cons.mp hw with h1 | h1
        · rw [h1]; exact h.1 c List.mem_cons_self
        · exact h.2 w h1
      | none =>
        cases d with
        | none => exact Tr.err
        | some d =>
          refine Tr.bind (SlotsOk.mono _) (Tr.pre (fun s _ => trivial) (hr.node d)) fun r => Tr.bind ((SlotsOk.mono _).and (ROk.mono C E r)) (Tr.pre (fun s h => h.2) (tr_asRhs r)) fun v => Tr.bind (((SlotsOk.mono _).and (ROk.mono C E r)).and (VOk.mono C E v)) (Tr.pre (fun s h => h.2) (tr_alloc v)) fun c =>
            Tr.bind ((((SlotsOk.mono _).and (ROk.mono C E r)).and (VOk.mono C E v)).and (COk.mono C c)) (Tr.pre (fun s h c hc => h.1.1.1 c (List.mem_cons_of_mem _ hc)) (ih l)) fun cs => Tr.pure fun s h w hw => ?_
          rcases List.mem_cons.mp hw with h1 | h1
          · rw [h1]; exact h.1.2
          · exact h.2 w h1

omit hr in
theorem slotsOk_replicate (s : St F) (k : Nat) : SlotsOk C s (List.replicate k none) := fun c hc => by
  have := List.eq_of_mem_replicate hc
  cases this

theorem tr_bindArgs (f : Value F) (as : List (String × Nat)) : Tr C E true true (fun s => CsOk C s (as.map (·.2))) (bindArgs rec f as) fun cs s => CsOk C s cs := by
  unfold bindArgs
  split
  · split
    · exact Tr.err
    · exact Tr.pure fun s h => h
  · rename_i pars _ _
    refine Tr.bind (R := fun l s => SlotsOk C s l) (CsOk.mono C _) ?_ fun s1 => Tr.bind ((CsOk.mono C _).and (SlotsOk.mono _)) (tr_insertArgs _ _ _ as s1) fun s2 => Tr.bind (((CsOk.mono C _).and (SlotsOk.mono _)).and (SlotsOk.mono _)) (Tr.pre (fun s h => ⟨h.1.1, h.2⟩) (tr_insertArgs _ _ _ as s2)) fun s3 => Tr.pre (fun s h => h.2) (tr_fillDefaults hr _ s3)
    split
    · refine Tr.bind (CsOk.mono C _) (Tr.pre (fun s _ c hc => by cases hc) (tr_alloc _)) fun c => Tr.pure fun s h c' hc' => ?_
      rcases List.mem_append.mp hc' with h1 | h1
      · exact slotsOk_replicate s _ c' h1
      · have := List.mem_singleton.mp h1
        cases this
        exact h.2
    · exact Tr.pure fun s _ => slotsOk_replicate s _
  · rename_i members
    exact Tr.bind (CsOk.mono C _) (Tr.pre (fun s h => ⟨h, slotsOk_replicate s _⟩) (tr_insertArgs _ _ _ as _)) fun s2 => Tr.bind ((CsOk.mono C _).and (SlotsOk.mono _)) (tr_insertArgs _ _ _ as s2) fun s3 => Tr.pre (fun s h => h.2) (tr_fillDefaults hr _ s3)
  · exact Tr.err

theorem tr_evalNodes (l : List (Node F)) : Tr C E true true (fun _ => True) (evalNodes rec l) fun r s => ROk C E s r := by
  induction l with
  | nil => exact Tr.pure fun s _ => rok_none
  | cons nd l ih =>
    unfold evalNodes
    split
    · exact hr.node nd
    · exact Tr.bind Mono.true_ (hr.node nd) fun _ => Tr.pre (fun s _ => trivial) ih

omit hr in
theorem tr_define (name : String) (v : Value F) : Tr C E true true (fun s => VOk C E s v) (define name v) fun r s => ROk C E s r := by
  have key : Tr C E true true (fun s => VOk C E s v) (do
      let c ← getRefOrInsert name
      write c v
      pure ER.none_ : M F (ER F)) fun r s => ROk C E s r :=
    Tr.bind (VOk.mono C E v) (Tr.pre (fun s _ => trivial) (tr_getRefOrInsert name)) fun c => Tr.bind ((VOk.mono C E v).and (COk.mono C c)) (Tr.pre (fun s h => ⟨h.2.1, h.1⟩) (tr_write c v)) fun _ => Tr.pure fun s _ => rok_none
  intro s hi hc hp a s' h
  unfold define at h
  split at h
  · cases h
  · exact key s hi hc hp a s' h

/-- the blocks -/
def isBlock : Node F → Bool
  | .nodes _ => true
  | .for_ _ => true
  | .if_ _ => true
  | _ => false

theorem tr_block (O : Flt F) (lr : Bool) (nd : Node F) (hb : isBlock nd = true) : Tr C E true false (fun _ => True) (step O lr rec (.node nd)) fun r s => ROk C E s r := by
  cases nd <;> try cases hb
  · rename_i l
    exact tr_pushed Mono.true_ (ROk.mono C E) (tr_evalNodes hr l)
  · rename_i l
    refine tr_pushed Mono.true_ (ROk.mono C E) ?_
    exact Tr.bind Mono.true_ (tr_sub l 0) fun a => Tr.bind (Mono.true_.and (Mono.const _)) (Tr.pre (fun _ _ => trivial) (hr.node a)) fun r => Tr.pre (P' := fun _ => True) (fun _ _ => trivial)
      (Tr.bind Mono.true_ (tr_sub l 1) fun a => Tr.pre (P' := fun _ => True) (fun _ _ => trivial) (Tr.bind Mono.true_ (tr_sub l 2) fun b => Tr.pre (P' := fun _ => True) (fun _ _ => trivial) (Tr.bind Mono.true_ (tr_sub l 3) fun c => Tr.pre (fun _ _ => trivial) (hr.loop a b c))))
  · rename_i l
    refine tr_pushed Mono.true_ (ROk.mono C E) ?_
    have hbr : ∀ i, Tr C E true true (fun _ => True) (do
        let _ ← rec (.node (← sub l i))
        pure ER.none_ : M F (ER F)) fun r s => ROk C E s r := fun i => Tr.bind Mono.true_ (tr_sub l i) fun a => Tr.bind (R := fun _ _ => True) (Mono.true_.and (Mono.const _)) (Tr.post (Tr.pre (fun _ _ => trivial) (hr.node a)) fun _ _ _ => trivial) fun r => Tr.pure fun s _ => rok_none
    refine Tr.bind Mono.true_ (tr_sub l 0) fun a => Tr.pre (P' := fun _ => True) (fun _ _ => trivial) (Tr.bind Mono.true_ (hr.node a) fun r => Tr.bind (Mono.true_.and (ROk.mono C E r)) (Tr.pre (fun s h => h.2) (tr_asRhs r)) fun v => Tr.pre (P' := fun _ => True) (fun _ _ => trivial) (Tr.bind Mono.true_ (tr_toBool O v) fun b => Tr.pre (P' := fun _ => True) (fun _ _ => trivial) ?_))
    split
    · exact hbr 1
    · split
      · exact hbr 2
      · exact Tr.pure fun s _ => rok_none

theorem tr_node (O : Flt F) (lr : Bool) (nd : Node F) : Tr C E true true (fun _ => True) (step O lr rec (.node nd)) fun r s => ROk C E s r := by
  cases nd with
  | nodes l => exact Tr.weakX (tr_block hr O lr _ rfl)
  | for_ l => exact Tr.weakX (tr_block hr O lr _ rfl)
  | if_ l => exact Tr.weakX (tr_block hr O lr _ rfl)
  | unaryRef a =>
    refine Tr.bind Mono.true_ (hr.node a) fun r => ?_
    split
    · exact Tr.err
    · exact Tr.err
  | unOp op a =>
    exact Tr.bind Mono.true_ (hr.node a) fun r => Tr.bind (Mono.true_.and (ROk.mono C E r)) (Tr.pre (fun s h => h.2) (tr_asRhs r)) fun v => Tr.pre (P' := fun _ => True) (fun _ _ => trivial) (Tr.bind Mono.true_ (tr_unop O op v) fun w => Tr.pure fun s h => rok_val h.2)
  | binOp op a b =>
    have hrhs : ∀ a, Tr C E true true (fun _ => True) (do asRhs (← rec (.node a)) : M F (Value F)) fun v s => VOk C E s v := fun a => Tr.bind Mono.true_ (hr.node a) fun r => Tr.pre (fun s h => h.2) (tr_asRhs r)
    unfold step
    dsimp only
    split
    · exact Tr.bind Mono.true_ (hr.node a) fun r => Tr.pre (P' := fun s => ROk C E s r) (fun s h => h.2) (Tr.bind (ROk.mono C E r) (tr_asRhs r) fun v => Tr.pre (P' := fun _ => True) (fun _ _ => trivial) (Tr.bind Mono.true_ (hr.node b) fun r => Tr.pre (P' := fun s => ROk C E s r) (fun s h => h.2) (Tr.bind (ROk.mono C E r) (tr_asRhs r) fun w => Tr.pre (P' := fun _ => True) (fun _ _ => trivial) (Tr.bind Mono.true_ (tr_binop O op v w) fun u => Tr.pure fun s h => rok_val h.2))))
    · exact Tr.bind Mono.true_ (hr.node b) fun r => Tr.pre (P' := fun s => ROk C E s r) (fun s h => h.2) (Tr.bind (ROk.mono C E r) (tr_asRhs r) fun v => Tr.pre (P' := fun _ => True) (fun _ _ => trivial) (Tr.bind Mono.true_ (hr.node a) fun r => Tr.pre (P' := fun s => ROk C E s r) (fun s h => h.2) (Tr.bind (ROk.mono C E r) (tr_asRhs r) fun w => Tr.pre (P' := fun _ => True) (fun _ _ => trivial) (Tr.bind Mono.true_ (tr_binop O op w v) fun u => Tr.pure fun s h => rok_val h.2))))
  | id name => exact Tr.bind Mono.true_ (tr_getRefOrInsert name) fun c => Tr.pure fun s h => rok_ref h.2
  | postfix_ op a =>
    refine Tr.bind Mono.true_ (hr.node a) fun r => Tr.pre (P' := fun s => ROk C E s r) (fun s h => h.2) (Tr.bind (ROk.mono C E r) (tr_asLhs r) fun c => Tr.pre (P' := fun s => COk C s c) (fun s h => h.2) (Tr.bind (COk.mono C c) (Tr.pre (fun s h => h.1) (tr_read c)) fun v => Tr.bind ((COk.mono C c).and (VOk.mono C E v)) (tr_popVal O op v) fun w =>
      Tr.bind (((COk.mono C c).and (VOk.mono C E v)).and (VOk.mono C E w)) (Tr.pre (fun s h => ⟨h.1.1.1, h.2⟩) (tr_write c w)) fun _ => Tr.pure fun s h => rok_val h.1.1.2))
  | func p b => exact Tr.bind Mono.true_ tr_cur fun e => Tr.pure fun s h => rok_val h.2
  | funcDef name p b => exact Tr.bind Mono.true_ tr_cur fun e => Tr.pre (fun s h => h.2) (tr_define name (.fn p b e))
  | funcCall name args =>
    exact Tr.bind Mono.true_ (tr_evalArgs hr args) fun as => Tr.pre (P' := fun s => CsOk C s (as.map (·.2))) (fun s h => h.2) (Tr.bind (CsOk.mono C _) (Tr.pre (fun _ _ => trivial) (tr_at name)) fun cf => Tr.bind ((CsOk.mono C _).and (COk.mono C cf)) (Tr.pre (fun s h => h.2.1) (tr_read cf)) fun f =>
      Tr.bind (((CsOk.mono C _).and (COk.mono C cf)).and (VOk.mono C E f)) (Tr.pre (fun s h => h.1.1) (tr_bindArgs hr f as)) fun cs => Tr.pre (P' := fun s => COk C s cf ∧ CsOk C s cs) (fun s h => ⟨h.1.1.2, h.2⟩) (Tr.bind ((COk.mono C cf).and (CsOk.mono C cs)) (Tr.pre (fun s h => h.1.1) (tr_read cf)) fun g => Tr.pre (fun s h => ⟨h.2, h.1.2⟩) (Tr.weak (hr.call g cs))))
  | subscribe b sb =>
    refine Tr.bind Mono.true_ (hr.node b) fun r => Tr.pre (P' := fun s => ROk C E s r) (fun s h => h.2) (Tr.bind (ROk.mono C E r) (Tr.pre (fun _ _ => trivial) (hr.node sb)) fun r2 => Tr.bind ((ROk.mono C E r).and (ROk.mono C E r2)) (Tr.pre (fun s h => h.2) (tr_asRhs r2)) fun v => Tr.pre (P' := fun s => ROk C E s r) (fun s h => h.1.1) (Tr.bind (ROk.mono C E r) (tr_baseValue r) fun bv => ?_))
    split
    · rename_i data
      split
      · split
        · exact Tr.err
        · split
          · exact Tr.err
          · rename_i c hc
            exact Tr.pre (fun s h => h.2 c (List.mem_of_getElem? hc)) (tr_found r c)
      · exact Tr.err
    · exact Tr.err
  | memberAccess b m =>
    refine Tr.bind Mono.true_ (hr.node b) fun r => Tr.pre (P' := fun s => ROk C E s r) (fun s h => h.2) (Tr.bind (ROk.mono C E r) (tr_baseValue r) fun bv => ?_)
    split
    · rename_i ns members
      dsimp only
      split
      · exact Tr.err
      · rename_i c hc
        exact Tr.pre (fun s h => h.2 c (List.mem_of_getElem? hc)) (tr_found r c)
    · exact Tr.err
  | structDef name m => exact Tr.pre (fun s _ => trivial) (tr_define name (.sdef name m))
  | ret a => exact hr.node a
  | value v =>
    refine Tr.pure fun s _ => rok_val ?_
    cases v <;> first | exact trivial | exact fun c hc => by cases hc
  | assign l r mode =>
    exact Tr.bind Mono.true_ (hr.node l) fun l' => Tr.pre (P' := fun s => ROk C E s l') (fun s h => h.2) (Tr.bind (ROk.mono C E l') (Tr.pre (fun _ _ => trivial) (hr.node r)) fun r2 => Tr.bind ((ROk.mono C E l').and (ROk.mono C E r2)) (Tr.pre (fun s h => h.2) (tr_asRhs r2)) fun v => Tr.bind (((ROk.mono C E l').and (ROk.mono C E r2)).and (VOk.mono C E v)) (Tr.pre (fun s h => ⟨h.1.1, h.2⟩) (tr_set mode l' v)) fun _ => Tr.pure fun s h => h.1.1.1)

theorem step_ok (O : Flt F) (lr : Bool) : RecOk C E (step O lr rec) where
  node := tr_node hr O lr
  call := tr_callFunction hr O
  loop := by
    intro a b c
    refine Tr.bind Mono.true_ (hr.node a) fun r => Tr.pre (P' := fun s => ROk C E s r) (fun s h => h.2) (Tr.bind (ROk.mono C E r) (tr_asRhs r) fun v => Tr.pre (P' := fun _ => True) (fun _ _ => trivial) (Tr.bind Mono.true_ (tr_toBool O v) fun t => Tr.pre (P' := fun _ => True) (fun _ _ => trivial) ?_))
    split
    · exact Tr.bind (R := fun _ _ => True) Mono.true_ (Tr.post (hr.node c) fun _ _ _ => trivial) fun _ => Tr.bind (R := fun _ _ => True) (Mono.true_.and (Mono.const _)) (Tr.post (Tr.pre (fun _ _ => trivial) (hr.node b)) fun _ _ _ => trivial) fun _ => Tr.pre (fun _ _ => trivial) (hr.loop a b c)
    · exact Tr.pure fun s _ => rok_none

end

theorem eval_ok (O : Flt F) (lr : Bool) (k : Nat) : RecOk C E (eval O lr k) := by
  induction k with
  | zero =>
    constructor <;> intros <;> intro s hi hc hp a s' h <;> cases h
  | succ k ih => exact step_ok ih O lr

end Nissa.Nice
