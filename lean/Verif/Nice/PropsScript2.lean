import Verif.Nice.PropsScript1
import Mathlib.Order.Basic
import Mathlib.Order.Nat
import Mathlib.Tactic.Set
import Mathlib.Tactic.ByContra

/-! # C75: what a script, a block, a call can change -/

set_option linter.all false

namespace Nissa.Nice

variable {F : Type}

/-- the cells and environments a value points at are inside the region -/
def VOk (C E : Nat → Prop) (s : St F) : Value F → Prop
  | .list l => ∀ c ∈ l, C c ∧ c < s.cells.length
  | .struct _ _ l => ∀ c ∈ l, C c ∧ c < s.cells.length
  | .fn _ _ e => E e ∧ e < s.envs.length
  | .ref _ => False
  | _ => True

/-- the region is closed -/
structure Inv (C E : Nat → Prop) (s : St F) : Prop where
  cells : ∀ c v, C c → s.cells[c]? = some v → VOk C E s v
  parent : ∀ e env p, E e → s.envs[e]? = some env → env.parent = some p → E p ∧ p < s.envs.length
  vars : ∀ e env x c, E e → s.envs[e]? = some env → (x, c) ∈ env.vars → C c ∧ c < s.cells.length
  newC : ∀ c, s.cells.length ≤ c → C c
  newE : ∀ e, s.envs.length ≤ e → E e

/-- what can have changed; `x`: the current environment can have got new variables -/
structure Rel (C : Nat → Prop) (x : Bool) (s s' : St F) : Prop where
  nc : s.cells.length ≤ s'.cells.length
  ne : s.envs.length ≤ s'.envs.length
  cells : ∀ c, ¬ C c → s'.cells[c]? = s.cells[c]?
  cur : s'.cur = s.cur
  envs : ∀ e, e < s.envs.length → (e ≠ s.cur ∨ x = false) → s'.envs[e]? = s.envs[e]?
  curEnv : ∀ env, s.envs[s.cur]? = some env → ∃ extra, s'.envs[s.cur]? = some { env with vars := env.vars ++ extra }

theorem Rel.refl (C : Nat → Prop) (x : Bool) (s : St F) : Rel C x s s := ⟨le_rfl, le_rfl, fun _ _ => rfl, rfl, fun _ _ _ => rfl, fun env h => ⟨[], by simpa using h⟩⟩

theorem Rel.trans {C : Nat → Prop} {x : Bool} {s s' s'' : St F} (h : Rel C x s s') (h' : Rel C x s' s'') : Rel C x s s'' := by
  refine ⟨h.nc.trans h'.nc, h.ne.trans h'.ne, fun c hc => (h'.cells c hc).trans (h.cells c hc), h'.cur.trans h.cur, fun e he hx => ?_, fun env he => ?_⟩
  · rw [h'.envs e (he.trans_le h.ne) (by rw [h.cur]; exact hx), h.envs e he hx]
  · obtain ⟨a, ha⟩ := h.curEnv env he
    obtain ⟨b, hb⟩ := h'.curEnv _ (by rw [h.cur]; exact ha)
    refine ⟨a ++ b, ?_⟩
    rw [h.cur] at hb
    rw [hb, List.append_assoc]

theorem Rel.weak {C : Nat → Prop} {x : Bool} {s s' : St F} (h : Rel C false s s') : Rel C x s s' := ⟨h.nc, h.ne, h.cells, h.cur, fun e he _ => h.envs e he (Or.inr rfl), h.curEnv⟩

/-- the current environment is in the region -/
def CurIn (E : Nat → Prop) (n : Bool) (s : St F) : Prop := n = true → E s.cur ∧ s.cur < s.envs.length

/-- the predicate holds also when there are more cells and environments -/
def Mono (P : St F → Prop) : Prop := ∀ s s' : St F, s.cells.length ≤ s'.cells.length → s.envs.length ≤ s'.envs.length → P s → P s'

theorem Mono.and {P Q : St F → Prop} (h : Mono P) (h' : Mono Q) : Mono fun s => P s ∧ Q s := fun s s' a b c => ⟨h s s' a b c.1, h' s s' a b c.2⟩

theorem Mono.true_ : Mono fun _ : St F => True := fun _ _ _ _ _ => trivial

theorem Mono.const (p : Prop) : Mono fun _ : St F => p := fun _ _ _ _ h => h

theorem VOk.mono (C E : Nat → Prop) (v : Value F) : Mono fun s => VOk C E s v := by
  intro s s' h1 h2 h
  cases v <;> simp only [VOk] at h ⊢
  · exact ⟨h.1, h.2.trans_le h2⟩
  · exact fun c hc => ⟨(h c hc).1, (h c hc).2.trans_le h1⟩
  · exact fun c hc => ⟨(h c hc).1, (h c hc).2.trans_le h1⟩

/-- a cell of the region -/
def COk (C : Nat → Prop) (s : St F) (c : Nat) : Prop := C c ∧ c < s.cells.length

theorem COk.mono (C : Nat → Prop) (c : Nat) : Mono fun s : St F => COk C s c := fun _ _ h1 _ h => ⟨h.1, h.2.trans_le h1⟩

/-- cells of the region -/
def CsOk (C : Nat → Prop) (s : St F) (l : List Nat) : Prop := ∀ c ∈ l, COk C s c

theorem CsOk.mono (C : Nat → Prop) (l : List Nat) : Mono fun s : St F => CsOk C s l := fun _ _ h1 _ h c hc => ⟨(h c hc).1, (h c hc).2.trans_le h1⟩

/-- environments of the region -/
def EOk (E : Nat → Prop) (s : St F) (e : Nat) : Prop := E e ∧ e < s.envs.length

theorem EOk.mono (E : Nat → Prop) (c : Nat) : Mono fun s : St F => EOk E s c := fun _ _ _ h1 h => ⟨h.1, h.2.trans_le h1⟩

/-- a result inside the region -/
def ROk (C E : Nat → Prop) (s : St F) (r : ER F) : Prop := (∀ c, r.ref = some c → COk C s c) ∧ ∀ v, r.value = some v → VOk C E s v

theorem ROk.mono (C E : Nat → Prop) (r : ER F) : Mono fun s : St F => ROk C E s r := fun s s' h1 h2 h => ⟨fun c hc => COk.mono C c s s' h1 h2 (h.1 c hc), fun v hv => VOk.mono C E v s s' h1 h2 (h.2 v hv)⟩

/-- the computation stays inside the region; `n`: it needs the current environment to be there, `x`: it can extend it -/
def Tr (C E : Nat → Prop) (n x : Bool) {α : Type} (P : St F → Prop) (m : M F α) (Q : α → St F → Prop) : Prop :=
  ∀ s, Inv C E s → CurIn E n s → P s → ∀ a s', m s = .ok a s' → Inv C E s' ∧ Rel C x s s' ∧ Q a s'

variable {C E : Nat → Prop} {n x : Bool}

theorem bind_ok {α β : Type} {m : M F α} {f : α → M F β} {s s'' : St F} {b : β} (h : (m >>= f) s = .ok b s'') : ∃ a s', m s = .ok a s' ∧ f a s' = .ok b s'' := by
  rw [bind_def] at h
  cases h1 : m s with
  | ok a s' => rw [h1] at h; exact ⟨a, s', rfl, h⟩
  | err => rw [h1] at h; simp at h
  | ub => rw [h1] at h; simp at h
  | more => rw [h1] at h; simp at h

theorem Tr.bind {α β : Type} {P : St F → Prop} {m : M F α} {R : α → St F → Prop} {f : α → M F β} {Q : β → St F → Prop} (hP : Mono P) (h1 : Tr C E n x P m R) (h2 : ∀ a, Tr C E n x (fun s => P s ∧ R a s) (f a) Q) : Tr C E n x P (m >>= f) Q := by
  intro s hi hc hp b s'' hb
  obtain ⟨a, s', ha, hb⟩ := bind_ok hb
  obtain ⟨i', r', q'⟩ := h1 s hi hc hp a s' ha
  obtain ⟨i2, r2, q2⟩ := h2 a s' i' (fun hn => by rw [r'.cur]; exact ⟨(hc hn).1, (hc hn).2.trans_le r'.ne⟩) ⟨hP s s' r'.nc r'.ne hp, q'⟩ b s'' hb
  exact ⟨i2, r'.trans r2, q2⟩

theorem Tr.pure {α : Type} {P : St F → Prop} {a : α} {Q : α → St F → Prop} (h : ∀ s, P s → Q a s) : Tr C E n x P (pure a : M F α) Q := by
  intro s hi hc hp b s' hb
  cases hb
  exact ⟨hi, Rel.refl C x s, h s hp⟩

theorem Tr.err {α : Type} {P : St F → Prop} {Q : α → St F → Prop} : Tr C E n x P (err : M F α) Q := by
  intro s hi hc hp b s' hb
  cases hb

theorem Tr.ub {α : Type} {P : St F → Prop} {Q : α → St F → Prop} : Tr C E n x P (ub : M F α) Q := by
  intro s hi hc hp b s' hb
  cases hb

theorem Tr.pre {α : Type} {P P' : St F → Prop} {m : M F α} {Q : α → St F → Prop} (h : ∀ s, P s → P' s) (h1 : Tr C E n x P' m Q) : Tr C E n x P m Q := fun s hi hc hp => h1 s hi hc (h s hp)

theorem Tr.post {α : Type} {P : St F → Prop} {m : M F α} {Q Q' : α → St F → Prop} (h1 : Tr C E n x P m Q) (h : ∀ a s, Q a s → Q' a s) : Tr C E n x P m Q' := by
  intro s hi hc hp a s' ha
  obtain ⟨i, r, q⟩ := h1 s hi hc hp a s' ha
  exact ⟨i, r, h a s' q⟩

theorem Tr.weak {α : Type} {P : St F → Prop} {m : M F α} {Q : α → St F → Prop} (h1 : Tr C E false false P m Q) : Tr C E n x P m Q := by
  intro s hi hc hp a s' ha
  obtain ⟨i, r, q⟩ := h1 s hi (by intro h; cases h) hp a s' ha
  exact ⟨i, r.weak, q⟩

theorem Tr.weakX {α : Type} {P : St F → Prop} {m : M F α} {Q : α → St F → Prop} (h1 : Tr C E n false P m Q) : Tr C E n x P m Q := by
  intro s hi hc hp a s' ha
  obtain ⟨i, r, q⟩ := h1 s hi hc hp a s' ha
  exact ⟨i, r.weak, q⟩

theorem tr_read (c : Nat) : Tr C E n x (fun s => C c) (read c : M F (Value F)) fun v s => VOk C E s v := by
  intro s hi hc hp v s' h
  unfold read at h
  split at h
  · rename_i v' hv
    cases h
    exact ⟨hi, Rel.refl C x s, hi.cells c v hp hv⟩
  · cases h

theorem VOk.same {s s' : St F} (h1 : s'.cells.length = s.cells.length) (h2 : s'.envs.length = s.envs.length) (v : Value F) : VOk C E s' v ↔ VOk C E s v := by
  cases v <;> simp only [VOk, h1, h2]

theorem tr_write (c : Nat) (v : Value F) : Tr C E n x (fun s => C c ∧ VOk C E s v) (write c v) fun _ _ => True := by
  intro s hi hc hp a s' h
  unfold write at h
  cases h
  refine ⟨⟨fun c' v' h1 h2 => ?_, hi.parent, fun e env y c' h1 h2 h3 => ?_, fun c' h1 => ?_, hi.newE⟩, ⟨by simp, le_rfl, fun c' h1 => ?_, rfl, fun _ _ _ => rfl, fun env h => ⟨[], by simpa using h⟩⟩, trivial⟩
  · refine VOk.mono C E v' s _ (by simp) le_rfl ?_
    dsimp only at h2
    rw [List.getElem?_set] at h2
    split at h2
    · split at h2
      · cases h2; exact hp.2
      · cases h2
    · exact hi.cells c' v' h1 h2
  · simpa using hi.vars e env y c' h1 h2 h3
  · exact hi.newC c' (by simpa using h1)
  · show (s.cells.set c v)[c']? = s.cells[c']?
    rw [List.getElem?_set, if_neg]
    intro h
    exact h1 (by rw [← h]; exact hp.1)

theorem tr_alloc (v : Value F) : Tr C E n x (fun s => VOk C E s v) (alloc v) fun c s => COk C s c := by
  intro s hi hc hp a s' h
  unfold alloc at h
  cases h
  refine ⟨⟨fun c' v' h1 h2 => ?_, hi.parent, fun e env y c' h1 h2 h3 => ?_, fun c' h1 => ?_, hi.newE⟩, ⟨by simp, le_rfl, fun c' h1 => ?_, rfl, fun _ _ _ => rfl, fun env h => ⟨[], by simpa using h⟩⟩, hi.newC _ le_rfl, by simp⟩
  · refine VOk.mono C E v' s _ (by simp) le_rfl ?_
    dsimp only at h2
    rw [List.getElem?_append] at h2
    split at h2
    · exact hi.cells c' v' h1 h2
    · have := List.mem_of_getElem? h2
      simp only [List.mem_singleton] at this
      rw [this]
      exact hp
  · have := hi.vars e env y c' h1 h2 h3
    refine ⟨this.1, ?_⟩
    simp only [List.length_append, List.length_singleton]
    omega
  · refine hi.newC c' ?_
    simp only [List.length_append, List.length_singleton] at h1
    omega
  · have : c' < s.cells.length := by
      by_contra h2
      exact h1 (hi.newC c' (by omega))
    dsimp only
    rw [List.getElem?_append_left this]

theorem lookup_mem {vars : List (String × Nat)} {name : String} {c : Nat} (h : lookup vars name = some c) : ∃ y, (y, c) ∈ vars := by
  unfold lookup at h
  rw [Option.map_eq_some_iff] at h
  obtain ⟨p, h1, h2⟩ := h
  exact ⟨p.1, by rw [← h2]; exact List.mem_of_find?_eq_some h1⟩

theorem findIn_in {s : St F} (hi : Inv C E s) (k e : Nat) (name : String) (c : Nat) (he : E e) (h : findIn s.envs k e name = some c) : COk C s c := by
  induction k generalizing e with
  | zero => cases h
  | succ k ih =>
    unfold findIn at h
    split at h
    · cases h
    · rename_i env henv
      split at h
      · rename_i c' hc'
        cases h
        obtain ⟨y, hy⟩ := lookup_mem hc'
        exact hi.vars e env y c he henv hy
      · split at h
        · rename_i p hp
          exact ih p (hi.parent e env p he henv hp).1 h
        · cases h

theorem tr_at (name : String) : Tr C E true x (fun _ => True) (at_ name : M F Nat) fun c s => COk C s c := by
  intro s hi hc hp a s' h
  unfold at_ at h
  split at h
  · rename_i c hc'
    cases h
    exact ⟨hi, Rel.refl C x s, findIn_in hi _ _ _ _ (hc rfl).1 hc'⟩
  · cases h

theorem getElem?_addVar (envs : List Env) (e : Nat) (name : String) (c i : Nat) : (addVar envs e name c)[i]? = if i = e then (envs[i]?).map (fun env => { env with vars := env.vars ++ [(name, c)] }) else envs[i]? := by
  unfold addVar
  rw [List.getElem?_modify]
  by_cases h : e = i
  · subst h; simp
  · rw [if_neg (fun h' => h h'.symm)]
    cases envs[i]? with
    | none => rfl
    | some a => simp [h]

theorem addVar_length (envs : List Env) (e : Nat) (name : String) (c : Nat) : (addVar envs e name c).length = envs.length := by simp [addVar]

/-- adding a variable to the current environment -/
theorem inv_addVar {s : St F} (hi : Inv C E s) (name : String) (c : Nat) (hc : COk C s c) : Inv C E { s with envs := addVar s.envs s.cur name c } ∧ Rel C true s { s with envs := addVar s.envs s.cur name c } := by
  have hg := getElem?_addVar s.envs s.cur name c
  refine ⟨⟨fun c' v' h1 h2 => ?_, fun e env p h1 h2 h3 => ?_, fun e env y c' h1 h2 h3 => ?_, hi.newC, fun e h => hi.newE e (by simpa [addVar_length] using h)⟩, ⟨le_rfl, by simp [addVar_length], fun _ _ => rfl, rfl, fun e he h1 => ?_, fun env h1 => ?_⟩⟩
  · refine VOk.mono C E v' s _ le_rfl (by simp [addVar_length]) ?_
    exact hi.cells c' v' h1 h2
  · dsimp only at h2
    rw [hg] at h2
    rw [show (_ : St F).envs.length = s.envs.length from addVar_length _ _ _ _]
    split at h2
    · rw [Option.map_eq_some_iff] at h2
      obtain ⟨env', h4, h5⟩ := h2
      subst h5
      exact hi.parent e env' p h1 h4 h3
    · exact hi.parent e env p h1 h2 h3
  · dsimp only at h2
    rw [hg] at h2
    split at h2
    · rw [Option.map_eq_some_iff] at h2
      obtain ⟨env', h4, h5⟩ := h2
      subst h5
      dsimp only at h3
      rw [List.mem_append, List.mem_singleton] at h3
      rcases h3 with h3 | h3
      · exact hi.vars e env' y c' h1 h4 h3
      · cases h3; exact hc
    · exact hi.vars e env y c' h1 h2 h3
  · dsimp only
    rw [hg, if_neg]
    rcases h1 with h1 | h1
    · exact h1
    · cases h1
  · refine ⟨[(name, c)], ?_⟩
    dsimp only
    rw [hg, if_pos rfl, h1]
    rfl

theorem tr_getRefOrInsert (name : String) : Tr C E true true (fun _ => True) (getRefOrInsert name : M F Nat) fun c s => COk C s c := by
  intro s hi hc hp a s' h
  unfold getRefOrInsert at h
  split at h
  · rename_i c hc'
    cases h
    exact ⟨hi, Rel.refl C true s, findIn_in hi _ _ _ _ (hc rfl).1 hc'⟩
  · cases h
    obtain ⟨i1, r1, q1⟩ := tr_alloc (C := C) (E := E) (n := true) (x := true) (Value.unset (F := F)) s hi hc trivial s.cells.length _ rfl
    obtain ⟨i2, r2⟩ := inv_addVar i1 name s.cells.length q1
    exact ⟨i2, r1.trans r2, q1⟩

/-- a new environment, entered for the computation -/
theorem tr_enter {α : Type} {P : St F → Prop} {m : M F α} {Q : α → St F → Prop} (p : Option Nat) (hP : Mono P) (hp : ∀ s, P s → ∀ e, p = some e → EOk E s e) (hQ : ∀ a, Mono (Q a)) (h1 : Tr C E true true P m Q) : Tr C E false false P (newEnv p >>= fun e => withEnv e m) Q := by
  intro s hi hc h a s' hb
  obtain ⟨e, s1, he, hb⟩ := bind_ok hb
  unfold newEnv at he
  cases he
  unfold withEnv at hb
  split at hb
  · rename_i a' s2 h2
    cases hb
    set s1 : St F := { s with envs := s.envs ++ [⟨p, []⟩], cur := s.envs.length } with hs1
    have hi1 : Inv C E s1 := by
      have hg : ∀ (e : Nat) (env : Env), s1.envs[e]? = some env → s.envs[e]? = some env ∨ env = ⟨p, []⟩ := by
        intro e env h3
        have h3' : (s.envs ++ [(⟨p, []⟩ : Env)])[e]? = some env := h3
        rw [List.getElem?_append] at h3'
        split at h3'
        · exact Or.inl h3'
        · exact Or.inr (by simpa using List.mem_of_getElem? h3')
      have hle : s1.envs.length = s.envs.length + 1 := by simp [hs1]
      refine ⟨fun c v h3 h4 => VOk.mono C E v s s1 le_rfl (by omega) (hi.cells c v h3 h4), fun e env q h3 h4 h5 => ?_, fun e env y c h3 h4 h5 => ?_, hi.newC, fun e h3 => hi.newE e (by omega)⟩
      · rcases hg e env h4 with h6 | h6
        · have := hi.parent e env q h3 h6 h5
          exact ⟨this.1, by omega⟩
        · rw [h6] at h5
          have := hp s h q h5
          exact ⟨this.1, by have := this.2; omega⟩
      · rcases hg e env h4 with h6 | h6
        · exact hi.vars e env y c h3 h6 h5
        · rw [h6] at h5
          cases h5
    have hs1l : s.envs.length < s1.envs.length := by simp [hs1]
    obtain ⟨i2, r2, q2⟩ := h1 s1 hi1 (fun _ => (⟨hi.newE s.envs.length le_rfl, hs1l⟩ : E s1.cur ∧ s1.cur < s1.envs.length)) (hP s s1 le_rfl hs1l.le h) a s2 h2
    have hold : ∀ e, e < s.envs.length → s2.envs[e]? = s.envs[e]? := by
      intro e he
      rw [r2.envs e (he.trans hs1l) (Or.inl (by show e ≠ s.envs.length; omega))]
      show (s.envs ++ [(⟨p, []⟩ : Env)])[e]? = _
      rw [List.getElem?_append_left he]
    refine ⟨⟨i2.cells, i2.parent, i2.vars, i2.newC, i2.newE⟩, ⟨r2.nc, hs1l.le.trans r2.ne, r2.cells, rfl, fun e he _ => hold e he, fun env he => ⟨[], ?_⟩⟩, hQ a s2 _ le_rfl le_rfl q2⟩
    have : s.cur < s.envs.length := by
      by_contra h3
      rw [List.getElem?_eq_none (by omega)] at he
      cases he
    rw [List.append_nil]
    exact (hold _ this).trans he
  · cases hb
  · cases hb
  · cases hb

theorem tr_pushed {α : Type} {P : St F → Prop} {m : M F α} {Q : α → St F → Prop} (hP : Mono P) (hQ : ∀ a, Mono (Q a)) (h1 : Tr C E true true P m Q) : Tr C E true false P (pushed m) Q := by
  intro s hi hc hp a s' h
  have h' : (newEnv (some s.cur) >>= fun e => withEnv e m) s = .ok a s' := h
  exact tr_enter (P := fun s' => P s' ∧ EOk E s' s.cur) (some s.cur) (hP.and (EOk.mono E _)) (fun s' h e he => by cases he; exact h.2) hQ (Tr.pre (fun s h => h.1) h1) s hi (by intro h; cases h) ⟨hp, hc rfl⟩ a s' h'

end Nissa.Nice
