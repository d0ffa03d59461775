import Verif.Nice.PropsScript3

/-! # C75: isolation, scoping, references -/

set_option linter.all false

namespace Nissa.Nice

variable {F : Type}

/-! ## Specification -/

/-- a place of the memory: a variable (or element) or an environment -/
inductive Obj | cell (c : Nat) | env (e : Nat)

/-- the place exists -/
def Obj.inside (s : St F) : Obj → Prop
  | .cell c => c < s.cells.length
  | .env e => e < s.envs.length

/-- the places a value points at -/
def points : Value F → Obj → Prop
  | .list l, o => ∃ c ∈ l, o = .cell c
  | .struct _ _ l, o => ∃ c ∈ l, o = .cell c
  | .fn _ _ e, o => o = .env e
  | .ref c, o => o = .cell c
  | _, _ => False

/-- the places that can be reached following pointers, variables, enclosing environments -/
inductive Reach (s : St F) (root : Obj → Prop) : Obj → Prop
  | root (o : Obj) (h : root o) : Reach s root o
  | parent (e p : Nat) (v : Env) (h : Reach s root (.env e)) (he : s.envs[e]? = some v) (hp : v.parent = some p) : Reach s root (.env p)
  | var (e c : Nat) (v : Env) (name : String) (h : Reach s root (.env e)) (he : s.envs[e]? = some v) (hc : (name, c) ∈ v.vars) : Reach s root (.cell c)
  | value (c : Nat) (v : Value F) (o : Obj) (h : Reach s root (.cell c)) (hc : s.cells[c]? = some v) (ho : points v o) : Reach s root o

/-- every pointer is to a place that exists, and no variable holds a reference -/
structure Good (s : St F) : Prop where
  cells : ∀ (c : Nat) (v : Value F) (o : Obj), s.cells[c]? = some v → points v o → o.inside s
  noRef : ∀ (c d : Nat), s.cells[c]? ≠ some (.ref d)
  parent : ∀ (e p : Nat) (v : Env), s.envs[e]? = some v → v.parent = some p → p < s.envs.length
  vars : ∀ (e c : Nat) (v : Env) (name : String), s.envs[e]? = some v → (name, c) ∈ v.vars → c < s.cells.length
  cur : s.cur < s.envs.length

/-- the result points at places that exist, and is not a reference value -/
def GoodRes (s : St F) (r : ER F) : Prop := (∀ c, r.ref = some c → c < s.cells.length) ∧ ∀ v, r.value = some v → (∀ d, v ≠ .ref d) ∧ ∀ o, points v o → o.inside s

/-- the variables and environments of the old state that cannot be reached from the roots are unchanged -/
def Isolated (root : Obj → Prop) (s s' : St F) : Prop := ∀ c, c < s.cells.length → ¬ Reach s root (.cell c) → s'.cells[c]? = s.cells[c]?

/-! ## Proofs -/

theorem vok_points {C E : Nat → Prop} {s : St F} {v : Value F} (hv : ∀ d, v ≠ .ref d) (h : ∀ o, points v o → o.inside s ∧ match o with | .cell c => C c | .env e => E e) : VOk C E s v := by
  cases v <;> simp only [VOk]
  · exact ⟨(h _ rfl).2, (h _ rfl).1⟩
  · rename_i c
    exact hv c rfl
  · exact fun c hc => ⟨(h (.cell c) ⟨c, hc, rfl⟩).2, (h (.cell c) ⟨c, hc, rfl⟩).1⟩
  · exact fun c hc => ⟨(h (.cell c) ⟨c, hc, rfl⟩).2, (h (.cell c) ⟨c, hc, rfl⟩).1⟩

theorem points_vok {C E : Nat → Prop} {s : St F} {v : Value F} (h : VOk C E s v) : (∀ d, v ≠ .ref d) ∧ ∀ o, points v o → o.inside s := by
  constructor
  · rintro d rfl
    exact h
  · intro o ho
    cases v <;> simp only [VOk, points] at h ho
    · rw [ho]; exact h.2
    · obtain ⟨c, hc, rfl⟩ := ho; exact (h c hc).2
    · obtain ⟨c, hc, rfl⟩ := ho; exact (h c hc).2

theorem inv_reach {s : St F} (hg : Good s) (root : Obj → Prop) : Inv (fun c => Reach s root (.cell c) ∨ s.cells.length ≤ c) (fun e => Reach s root (.env e) ∨ s.envs.length ≤ e) s := by
  refine ⟨fun c v h1 h2 => ?_, fun e v p h1 h2 h3 => ?_, fun e v name c h1 h2 h3 => ?_, fun c h => Or.inr h, fun e h => Or.inr h⟩
  · have hlt := (List.getElem?_eq_some_iff.mp h2).1
    have h1' : Reach s root (.cell c) := h1.resolve_right (by omega)
    refine vok_points (fun d hd => hg.noRef c d (hd ▸ h2)) fun o ho => ⟨hg.cells c v o h2 ho, ?_⟩
    cases o with
    | cell c' => exact Or.inl (Reach.value c v _ h1' h2 ho)
    | env e => exact Or.inl (Reach.value c v _ h1' h2 ho)
  · have hlt := (List.getElem?_eq_some_iff.mp h2).1
    exact ⟨Or.inl (Reach.parent e p v (h1.resolve_right (by omega)) h2 h3), hg.parent e p v h2 h3⟩
  · have hlt := (List.getElem?_eq_some_iff.mp h2).1
    exact ⟨Or.inl (Reach.var e c v name (h1.resolve_right (by omega)) h2 h3), hg.vars e c v name h2 h3⟩

theorem inv_true {s : St F} (hg : Good s) : Inv (fun _ => True) (fun _ => True) s :=
  ⟨fun c v _ h => vok_points (fun d hd => hg.noRef c d (hd ▸ h)) fun o ho => ⟨hg.cells c v o h ho, by cases o <;> trivial⟩, fun e v p _ h1 h2 => ⟨trivial, hg.parent e p v h1 h2⟩, fun e v n c _ h1 h2 => ⟨trivial, hg.vars e c v n h1 h2⟩, fun _ _ => trivial, fun _ _ => trivial⟩

theorem good_of_inv {s : St F} (h : Inv (fun _ => True) (fun _ => True) s) (hc : s.cur < s.envs.length) : Good s :=
  ⟨fun c v o h1 h2 => (points_vok (h.cells c v trivial h1)).2 o h2, fun c d h1 => h.cells c _ trivial h1, fun e p v h1 h2 => (h.parent e v p trivial h1 h2).2, fun e c v n h1 h2 => (h.vars e v n c trivial h1 h2).2, hc⟩

theorem goodRes_of {s : St F} {r : ER F} {C E : Nat → Prop} (h : ROk C E s r) : GoodRes s r := ⟨fun c hc => (h.1 c hc).2, fun v hv => points_vok (h.2 v hv)⟩

/-- **C75**.  Memory safety: at the start and after the evaluation of any piece of script, every variable, element, member, closure and enclosing environment is a place that exists, and so is what the evaluation gives back; no variable ever holds a reference -/
theorem C75_memory_safe (O : Flt F) (lr : Bool) : Good (initSt O) ∧ ∀ (k : Nat) (nd : Node F) (s s' : St F) (r : ER F), Good s → eval O lr k (.node nd) s = .ok r s' → Good s' ∧ GoodRes s' r := by
  constructor
  · refine ⟨?_, ?_, ?_, ?_, Nat.zero_lt_one⟩
    · intro c v o h hp
      have := List.mem_of_getElem? h
      simp only [initSt, List.mem_cons, List.not_mem_nil, or_false] at this
      rcases this with h | h | h | h | h | h | h | h | h | h | h <;> subst h <;> exact hp.elim
    · intro c d h
      have := List.mem_of_getElem? h
      simp [initSt] at this
    · intro e p v h hp
      have := List.mem_of_getElem? h
      simp only [initSt, List.mem_singleton] at this
      subst this
      cases hp
    · intro e c v name h hp
      have := List.mem_of_getElem? h
      simp only [initSt, List.mem_singleton] at this
      subst this
      simp only [List.mem_cons, List.not_mem_nil, or_false, Prod.mk.injEq] at hp
      simp only [initSt, List.length_cons, List.length_nil]
      omega
  · intro k nd s s' r hg h
    obtain ⟨i, rl, q⟩ := (eval_ok O lr k).node nd s (inv_true hg) (fun _ => ⟨trivial, hg.cur⟩) trivial r s' h
    exact ⟨good_of_inv i (by rw [rl.cur]; exact lt_of_lt_of_le hg.cur rl.ne), goodRes_of q⟩

/-- **C75**.  Whatever a piece of script does, it can change only variables (and elements, members) that can be reached from the scopes enclosing it; the scope it runs in is the current one again at the end; new names are added
to that scope only, and none of the existing names of any scope is ever rebound to another variable -/
theorem C75_isolation (O : Flt F) (lr : Bool) (k : Nat) (nd : Node F) (s s' : St F) (r : ER F) (hg : Good s) (h : eval O lr k (.node nd) s = .ok r s') :
    Isolated (fun o => o = .env s.cur) s s' ∧ s'.cur = s.cur ∧ (∀ e, e < s.envs.length → e ≠ s.cur → s'.envs[e]? = s.envs[e]?) ∧
      (∀ v, s.envs[s.cur]? = some v → ∃ extra, s'.envs[s.cur]? = some { v with vars := v.vars ++ extra }) := by
  obtain ⟨i, rl, q⟩ := (eval_ok O lr k).node nd s (inv_reach hg fun o => o = .env s.cur) (fun _ => ⟨Or.inl (Reach.root _ rfl), hg.cur⟩) trivial r s' h
  refine ⟨fun c hc hn => rl.cells c fun h => ?_, rl.cur, fun e he hne => rl.envs e he (Or.inl hne), rl.curEnv⟩
  rcases h with h | h
  · exact hn h
  · omega

/-- **C75**.  A block, a `for`, an `if` add no name to any existing scope -/
theorem C75_block (O : Flt F) (lr : Bool) (k : Nat) (nd : Node F) (hb : isBlock nd = true) (s s' : St F) (r : ER F) (hg : Good s) (h : eval O lr k (.node nd) s = .ok r s') : ∀ e, e < s.envs.length → s'.envs[e]? = s.envs[e]? := by
  cases k with
  | zero => cases h
  | succ k =>
    obtain ⟨i, rl, q⟩ := tr_block (eval_ok O lr k) O lr nd hb s (inv_true hg) (fun _ => ⟨trivial, hg.cur⟩) trivial r s' h
    exact fun e he => rl.envs e he (Or.inr rfl)

/-- **C75**.  A call can change only what can be reached from the arguments, or from the scope where the function was defined: not the variables of the caller; and it adds no name to any existing scope -/
theorem C75_call (O : Flt F) (lr : Bool) (k : Nat) (f : Value F) (args : List Nat) (s s' : St F) (r : ER F) (hg : Good s) (hf : ∀ d, f ≠ .ref d) (hf' : ∀ o, points f o → o.inside s) (ha : ∀ a ∈ args, a < s.cells.length) (h : eval O lr k (.call f args) s = .ok r s') :
    Good s' ∧ GoodRes s' r ∧ Isolated (fun o => points f o ∨ ∃ a ∈ args, o = .cell a) s s' ∧ s'.cur = s.cur ∧ ∀ e, e < s.envs.length → s'.envs[e]? = s.envs[e]? := by
  obtain ⟨i, rl, q⟩ := (eval_ok O lr k).call f args s (inv_reach hg fun o => points f o ∨ ∃ a ∈ args, o = .cell a) (by intro h; cases h)
    ⟨vok_points hf fun o ho => ⟨hf' o ho, by cases o <;> exact Or.inl (Reach.root _ (Or.inl ho))⟩, fun a h => ⟨Or.inl (Reach.root _ (Or.inr ⟨a, h, rfl⟩)), ha a h⟩⟩ r s' h
  obtain ⟨i1, rl1, q1⟩ := (eval_ok O lr k).call f args s (inv_true hg) (by intro h; cases h)
    ⟨vok_points hf fun o ho => ⟨hf' o ho, by cases o <;> trivial⟩, fun a h => ⟨trivial, ha a h⟩⟩ r s' h
  refine ⟨good_of_inv i1 (by rw [rl1.cur]; exact lt_of_lt_of_le hg.cur rl1.ne), goodRes_of q, fun c hc hn => rl.cells c fun h => ?_, rl.cur, fun e he => rl.envs e he (Or.inr rfl)⟩
  rcases h with h | h
  · exact hn h
  · omega

/-- the same outcome, but for the current environment -/
def SameBut (e : Nat) {α : Type} : Res F α → Res F α
  | .ok a s => .ok a { s with cur := e }
  | .err => .err
  | .ub => .ub
  | .more => .more

theorem SameBut.bind {α β : Type} (m : M F α) (f : α → M F β) (s : St F) (e : Nat) (hm : m { s with cur := e } = SameBut e (m s)) (hf : ∀ a s', f a { s' with cur := e } = SameBut e (f a s')) : (m >>= f) { s with cur := e } = SameBut e ((m >>= f) s) := by
  rw [bind_def, bind_def, hm]
  cases m s with
  | ok a s' => exact hf a s'
  | err => rfl
  | ub => rfl
  | more => rfl

/-- a computation that does not look at the current environment -/
def CurFree {α : Type} (m : M F α) : Prop := ∀ s e, m { s with cur := e } = SameBut e (m s)

theorem CurFree.bind {α β : Type} {m : M F α} {f : α → M F β} (hm : CurFree m) (hf : ∀ a, CurFree (f a)) : CurFree (m >>= f) := fun s e => SameBut.bind m f s e (hm s e) fun a s' => hf a s' e

theorem curFree_pure {α : Type} (a : α) : CurFree (pure a : M F α) := fun s e => rfl
theorem curFree_err {α : Type} : CurFree (err : M F α) := fun s e => rfl
theorem curFree_ub {α : Type} : CurFree (ub : M F α) := fun s e => rfl
theorem curFree_read (c : Nat) : CurFree (read c : M F (Value F)) := fun s e => by
  unfold read
  dsimp only
  cases s.cells[c]? <;> rfl
theorem curFree_alloc (v : Value F) : CurFree (alloc v) := fun s e => rfl

theorem curFree_reads (l : List Nat) : CurFree (reads l : M F (List (Value F))) := by
  induction l with
  | nil => exact curFree_pure _
  | cons c l ih => exact (curFree_read c).bind fun v => ih.bind fun r => curFree_pure _

theorem curFree_ints (l : List (Value F)) : CurFree (ints l : M F (List Int)) := by
  induction l with
  | nil => exact curFree_pure _
  | cons v l ih => cases v <;> first | exact curFree_err | exact ih.bind fun r => curFree_pure _

theorem curFree_allocs (l : List (Value F)) : CurFree (allocs l) := by
  induction l with
  | nil => exact curFree_pure _
  | cons v l ih => exact (curFree_alloc v).bind fun c => ih.bind fun r => curFree_pure _

theorem curFree_asDbl (O : Flt F) (v : Value F) : CurFree (asDbl O v) := by
  unfold asDbl
  split <;> first | exact curFree_pure _ | exact curFree_err

theorem curFree_call (O : Flt F) (lr : Bool) (k : Nat) (f : Value F) (args : List Nat) : CurFree (eval O lr k (.call f args)) := by
  induction k generalizing f args with
  | zero => exact fun s e => rfl
  | succ k ih =>
    have hmath : ∀ h : Host, CurFree (match args with
      | [a] => do
        let x ← asDbl O (← read a)
        pure (.dbl (O.math h x))
      | _ => err : M F (Value F)) := by
      intro h
      split
      · exact (curFree_read _).bind fun v => (curFree_asDbl O v).bind fun x => curFree_pure _
      · exact curFree_err
    have heach : ∀ (f : Nat) (l : List Nat), CurFree (eachEl (eval O lr k) f l) := by
      intro f l
      induction l with
      | nil => exact curFree_pure _
      | cons c l ih' => exact (curFree_read f).bind fun fv => (ih fv [c]).bind fun _ => ih'
    show CurFree (callFunction O (eval O lr k) f args)
    unfold callFunction
    split
    · rename_i pars body env
      split
      · exact curFree_err
      · intro s e
        rw [bind_def, bind_def]
        show withEnv s.envs.length _ _ = SameBut e (withEnv s.envs.length _ _)
        unfold withEnv
        dsimp only
        cases (bindPars pars args >>= fun _ => eval O lr k (.node body) : M F (ER F)) { s with envs := s.envs ++ [⟨some env, []⟩], cur := s.envs.length } <;> rfl
    · rename_i h
      refine CurFree.bind ?_ fun v => curFree_pure _
      cases h with
      | print => exact (curFree_reads args).bind fun vs s e => rfl
      | makeVec => exact curFree_pure _
      | forEachEl =>
        unfold callHost
        dsimp only
        split
        · refine (curFree_read _).bind fun v => ?_
          split
          · exact (heach _ _).bind fun _ => curFree_pure _
          · exact curFree_err
        · exact curFree_err
      | seq =>
        unfold callHost
        dsimp only
        unfold hostSeq
        split
        · exact curFree_err
        · refine (curFree_reads args).bind fun vs => (curFree_ints vs).bind fun p => CurFree.bind ?_ fun q => ?_
          · split <;> first | exact curFree_pure _ | exact curFree_err
          · dsimp only
            split
            · exact curFree_err
            · split
              · exact curFree_ub
              · exact (curFree_allocs _).bind fun cs => curFree_pure _
      | pow =>
        unfold callHost
        dsimp only
        split
        · exact (curFree_read _).bind fun v => (curFree_asDbl O v).bind fun x => (curFree_read _).bind fun w => (curFree_asDbl O w).bind fun y => curFree_pure _
        · exact curFree_err
      | sqrt => exact hmath .sqrt
      | exp => exact hmath .exp
      | sin => exact hmath .sin
      | cos => exact hmath .cos
      | tan => exact hmath .tan
    · split
      · exact curFree_err
      · exact curFree_pure _
    · exact curFree_err

/-- **C75**.  Scoping is lexical: the outcome of a call does not depend on the scope from where it is made -/
theorem C75_lexical (O : Flt F) (lr : Bool) (k : Nat) (f : Value F) (args : List Nat) (s : St F) (e : Nat) :
    eval O lr k (.call f args) { s with cur := e } = (match eval O lr k (.call f args) s with
      | .ok r s' => .ok r { s' with cur := e }
      | .err => .err
      | .ub => .ub
      | .more => .more) := by
  rw [curFree_call O lr k f args s e]
  cases eval O lr k (.call f args) s <;> rfl

theorem bindPars_ref (pars : List (Par F)) (hp : ∃ p ∈ pars, p.2.1 = true) (args : List Nat) (hl : args.length = pars.length) (s : St F) (hn : ∀ (c d : Nat), s.cells[c]? ≠ some (.ref d)) (r : Unit) (s' : St F) : bindPars pars args s ≠ .ok r s' := by
  induction pars generalizing args s with
  | nil =>
    obtain ⟨p, hp, _⟩ := hp
    cases hp
  | cons par pars ih =>
    cases args with
    | nil => cases hl
    | cons arg args =>
      intro h
      by_cases hr : par.2.1 = true
      · simp only [bindPars, hr, if_true] at h
        obtain ⟨a, s1, h1, h2⟩ := bind_ok h
        obtain ⟨v, s2, h3, h4⟩ := bind_ok h1
        unfold read at h3
        split at h3
        · rename_i v' hv
          cases h3
          split at h4
          · exact hn _ _ hv
          · cases h4
        · cases h3
      · simp only [bindPars, hr, if_false] at h
        obtain ⟨a, s1, h1, h2⟩ := bind_ok h
        cases h1
        obtain ⟨e, s2, h3, h4⟩ := bind_ok h2
        cases h3
        obtain ⟨u, s3, h5, h6⟩ := bind_ok h4
        split at h5
        · cases h5
        · split at h5
          · cases h5
          · cases h5
            refine ih ?_ args (by simpa using hl) _ ?_ h6
            rotate_left
            · exact hn
            obtain ⟨p, hp, hpr⟩ := hp
            rcases List.mem_cons.mp hp with h7 | h7
            · rw [h7] at hpr; exact absurd hpr hr
            · exact ⟨p, h7, hpr⟩

/-- **C75** (violation).  Taking a reference always fails -/
theorem C75_violated_reference (O : Flt F) (lr : Bool) (k : Nat) (nd : Node F) (s s' : St F) (r : ER F) : eval O lr k (.node (.unaryRef nd)) s ≠ .ok r s' := by
  intro h
  cases k with
  | zero => cases h
  | succ k =>
    obtain ⟨t, s1, h1, h2⟩ := bind_ok (show (eval O lr k (.node nd) >>= fun tmp => match tmp.ref with
      | none => err
      | some c => if !refNull c then err else pure ⟨none, some (.ref c)⟩ : M F (ER F)) s = _ from h)
    obtain ⟨ref, val⟩ := t
    cases ref <;> cases h2

/-- **C75** (violation).  A function with a parameter passed by reference can never be called -/
theorem C75_violated_reference_parameter (O : Flt F) (lr : Bool) (k : Nat) (pars : List (Par F)) (body : Node F) (env : Nat) (args : List Nat) (s s' : St F) (r : ER F) (hg : Good s) (hp : ∃ p ∈ pars, p.2.1 = true) : eval O lr k (.call (.fn pars body env) args) s ≠ .ok r s' := by
  intro h
  cases k with
  | zero => cases h
  | succ k =>
    have h' : callFunction O (eval O lr k) (.fn pars body env) args s = .ok r s' := h
    unfold callFunction at h'
    dsimp only at h'
    split at h'
    · cases h'
    · rename_i hl
      obtain ⟨e, s1, h1, h2⟩ := bind_ok h'
      cases h1
      unfold withEnv at h2
      split at h2
      · rename_i a s2 h3
        obtain ⟨u, s3, h4, h5⟩ := bind_ok h3
        refine bindPars_ref pars hp args (by omega) _ ?_ u s3 h4
        exact hg.noRef
      · cases h2
      · cases h2
      · cases h2

/-- **C75** (violation).  A variadic function can never be called: the parameter made for `...` is marked as a reference, as well as the one for `& ...` -/
theorem C75_violated_variadic (O : Flt F) (lr : Bool) (k : Nat) (pars : List (Par F)) (isRef : Nat) (hr : isRef = 1 ∨ isRef = 2) (body : Node F) (env : Nat) (args : List Nat) (s s' : St F) (r : ER F) (hg : Good s) : eval O lr k (.call (.fn (pars ++ [variadicPar F isRef]) body env) args) s ≠ .ok r s' :=
  C75_violated_reference_parameter O lr k _ body env args s s' r hg ⟨variadicPar F isRef, by simp, by rcases hr with rfl | rfl <;> rfl⟩

end Nissa.Nice
