import Verif.Ib.Hit
import Mathlib.Tactic.Ring
import Mathlib.Tactic.Linarith

/-! # The looper on the hits: the sequence of the operations -/

set_option linter.all false

namespace Nissa.Hit

section
variable {N V : Type} [LinearOrder N] (p : Plan N V)

/-- the part of the state which decides what is computed -/
def ctrl (st : St N V) : (N → Finset N) × Finset N × Finset Nat × Finset N × List N × Nat :=
  (st.propDep, st.computedProps, st.computed2pts, st.computedSides, st.orderedDep, st.nPassedDep)

theorem foldlM_inv {α σ : Type} {f : σ → α → Except Err σ} (P : σ → σ → Prop) (hr : ∀ s, P s s) (ht : ∀ s s' s'', P s s' → P s' s'' → P s s'')
    {l : List α} (h : ∀ x ∈ l, ∀ s s', f s x = .ok s' → P s s') : ∀ s s', l.foldlM f s = .ok s' → P s s' := by
  induction l with
  | nil => intro s s' h'; cases h'; exact hr s
  | cons a l ih =>
    intro s s' h'
    rw [List.foldlM_cons] at h'
    rcases e : f s a with er | s1
    · rw [e] at h'; cases h'
    · rw [e] at h'
      exact ht _ _ _ (h a List.mem_cons_self _ _ e) (ih (fun x hx => h x (List.mem_cons_of_mem _ hx)) s1 s' h')

theorem foldlM_ctrl {α : Type} {f : St N V → α → Except Err (St N V)} {l : List α} (h : ∀ x ∈ l, ∀ s s', f s x = .ok s' → ctrl s' = ctrl s) :
    ∀ s s', l.foldlM f s = .ok s' → ctrl s' = ctrl s :=
  foldlM_inv (fun s s' => ctrl s' = ctrl s) (fun _ => rfl) (fun _ _ _ a b => b.trans a) h

theorem fill_ctrl (n : N) (v : V) (st : St N V) : ctrl (fill p n v st) = ctrl st := by
  unfold fill
  cases st.mem n <;> rfl

theorem bind_ok {α β : Type} {x : Except Err α} {f : α → Except Err β} {b : β} (h : x >>= f = .ok b) : ∃ a, x = .ok a ∧ f a = .ok b := by
  rcases x with e | a
  · cases h
  · exact ⟨a, rfl, h⟩

theorem bind_same {α β : Type} {x x' : Except Err α} (hx : x = x') {f g : α → Except Err β} (h : ∀ a, x = .ok a → f a = g a) : x >>= f = x' >>= g := by
  subst hx
  rcases x with e | a
  · rfl
  · exact h a rfl

theorem offload_ctrl (n : N) (st st' : St N V) (h : offload n st = .ok st') : ctrl st' = ctrl st := by
  unfold offload at h
  split at h
  · cases h
  · dsimp only at h
    split at h
    · cases h
    · cases h; rfl

theorem accommodate_ctrl (k : Nat) (st st' : St N V) (h : accommodate p k st = .ok st') : ctrl st' = ctrl st := by
  unfold accommodate at h
  split at h
  · cases h; rfl
  · obtain ⟨fd, h1, h2⟩ := bind_ok h
    refine foldlM_ctrl ?_ _ _ h2
    intro x hx s s' h3
    split at h3
    · cases h3
    · obtain ⟨s1, h4, h5⟩ := bind_ok h3
      cases h5
      exact (show _ = ctrl s1 from rfl).trans (offload_ctrl _ _ _ h4)

theorem ensure_ctrl (n : N) (st st' : St N V) (h : ensure p n st = .ok st') : ctrl st' = ctrl st := by
  unfold ensure at h
  split at h
  · unfold recall at h
    split at h
    · cases h
    · obtain ⟨s1, h1, h2⟩ := bind_ok h
      split at h2
      · cases h2
      · cases h2
        rw [← accommodate_ctrl p 1 st s1 h1]
        exact fill_ctrl p n _ s1
  · cases h; rfl

theorem eraseUnneeded_ctrl (st st' : St N V) (h : eraseUnneeded p st = .ok st') : ctrl st' = ctrl st := by
  refine foldlM_ctrl ?_ _ _ h
  intro x hx s s' h
  unfold eraseOne at h
  dsimp only at h
  split at h
  · split at h
    · cases h
    · cases h; rfl
  · cases h; rfl

theorem generate_ctrl (n : N) (st st' : St N V) (h : generate p n st = .ok st') : ctrl st' = ctrl st := by
  obtain ⟨vs, h1, h2⟩ := bind_ok h
  cases h2
  exact fill_ctrl p n _ st

theorem computeContr_ctrl (i : Nat) (a b : N) (st st' : St N V) (h : computeContr i a b st = .ok st') : ctrl st' = ctrl st := by
  unfold computeContr at h
  dsimp only at h
  obtain ⟨s1, h1, h2⟩ := bind_ok h
  obtain ⟨va, h3, h4⟩ := bind_ok h2
  obtain ⟨vb, h5, h6⟩ := bind_ok h4
  cases h6
  refine Eq.trans (b := ctrl s1) rfl (Eq.trans (foldlM_ctrl ?_ _ _ h1) rfl)
  intro x hx s s' h
  split at h
  · split at h
    · cases h
    · cases h; rfl
  · cases h; rfl

theorem computeSide_ctrl (s : N) (a b : N) (st st' : St N V) (h : computeSide s a b st = .ok st') : ctrl st' = ctrl st := by
  unfold computeSide at h
  obtain ⟨va, h3, h4⟩ := bind_ok h
  obtain ⟨vb, h5, h6⟩ := bind_ok h4
  cases h6
  rfl

theorem prepare_real_ctrl (l : List N) (st st' : St N V) (h : prepare p false l st = .ok st') : ctrl st' = ctrl st :=
  foldlM_ctrl (fun x _ s s' h => ensure_ctrl p x s s' h) _ _ h

theorem prepare_dry (l : List N) : ∀ st : St N V, prepare p true l st = .ok { st with orderedDep := st.orderedDep ++ l } := by
  induction l with
  | nil => intro st; simp [prepare, pure, Except.pure]
  | cons a l ih =>
    intro st
    have := ih { st with orderedDep := st.orderedDep ++ [a] }
    unfold prepare at this ⊢
    rw [List.foldlM_cons]
    simp only [if_true] at this ⊢
    show List.foldlM _ _ l = _
    rw [this]
    simp

/-! ### Operations -/

/-- an operation of the loop -/
inductive Op (N : Type) where
  | gen (n : N)
  | contr (i : Nat) (a b : N)
  | clear
  | side (s bw fw : N)

variable {p} in
/-- the propagators used -/
def Op.operands (p : Plan N V) : Op N → List N
  | .gen n => p.sources n
  | .contr _ a b => [a, b]
  | .clear => []
  | .side _ a b => [a, b]

/-- the name of the user in the set of the dependencies -/
def Op.tag (p : Plan N V) : Op N → Option N
  | .gen n => some n
  | .contr i _ _ => some (p.tag2 i)
  | .clear => none
  | .side s _ _ => some (p.tagS s)

def exec (dry : Bool) (st : St N V) : Op N → Except Err (St N V)
  | .gen n => genStep p dry n st
  | .contr i a b => contrStep p dry i a b st
  | .clear => .ok { st with lib := fun _ => none }
  | .side s a b => sideStep p dry s a b st

def Op.addProps : Op N → Finset N → Finset N
  | .gen n, C => insert n C
  | _, C => C

def Op.add2 : Op N → Finset Nat → Finset Nat
  | .contr i _ _, D => insert i D
  | _, D => D

def Op.addS : Op N → Finset N → Finset N
  | .side s _ _, S => insert s S
  | _, S => S

def Op.dropTag (p : Plan N V) (o : Op N) (D : Finset N) : Finset N :=
  match o.tag p with
  | some t => D.erase t
  | none => D

/-- effect of an operation on the part of the state which decides what is computed -/
structure CtrlStep (dry : Bool) (o : Op N) (st st' : St N V) : Prop where
  dep : ∀ x, st'.propDep x = if x ∈ o.operands p then o.dropTag p (st.propDep x) else st.propDep x
  props : st'.computedProps = o.addProps st.computedProps
  two : st'.computed2pts = o.add2 st.computed2pts
  sides : st'.computedSides = o.addS st.computedSides
  ord : st'.orderedDep = if dry then st.orderedDep ++ o.operands p else st.orderedDep
  passed : st'.nPassedDep = if dry then st.nPassedDep else st.nPassedDep + (o.operands p).length

theorem dropDep_dep (t a b : N) (st : St N V) (x : N) : (dropDep t a b st).propDep x = if x ∈ [a, b] then (st.propDep x).erase t else st.propDep x := by
  simp only [dropDep, List.foldl_cons, List.foldl_nil, List.mem_cons, List.not_mem_nil, or_false]
  by_cases hb : x = b
  · subst hb
    rw [Function.update_self, if_pos (.inr rfl)]
    by_cases ha : x = a
    · subst ha; rw [Function.update_self, Finset.erase_idem]
    · rw [Function.update_of_ne ha]
  · rw [Function.update_of_ne hb]
    by_cases ha : x = a
    · subst ha; rw [Function.update_self, if_pos (.inl rfl)]
    · rw [Function.update_of_ne ha, if_neg (by tauto)]

theorem ctrl_eq {st st' : St N V} (h : ctrl st' = ctrl st) : st'.propDep = st.propDep ∧ st'.computedProps = st.computedProps ∧ st'.computed2pts = st.computed2pts ∧
    st'.computedSides = st.computedSides ∧ st'.orderedDep = st.orderedDep ∧ st'.nPassedDep = st.nPassedDep := by
  simp only [ctrl, Prod.mk.injEq] at h
  exact h

/-- the loop removing the dependency of the propagator computed -/
theorem dropGen {n : N} : ∀ (l : List N) (st st' : St N V),
    l.foldlM (fun (st : St N V) s => if n ∉ st.propDep s then (.error Err.crash : Except Err (St N V)) else pure { st with propDep := Function.update st.propDep s ((st.propDep s).erase n) }) st = .ok st' →
    (∀ x, st'.propDep x = if x ∈ l then (st.propDep x).erase n else st.propDep x) ∧ st' = { st with propDep := st'.propDep } ∧ l.Nodup ∧ ∀ x ∈ l, n ∈ st.propDep x := by
  intro l
  induction l with
  | nil => intro st st' h; cases h; exact ⟨fun x => by simp, rfl, List.nodup_nil, fun x hx => by simp at hx⟩
  | cons a l ih =>
    intro st st' h
    rw [List.foldlM_cons] at h
    obtain ⟨s1, h1, h2⟩ := bind_ok h
    split at h1
    · cases h1
    · rename_i hm
      push Not at hm
      cases h1
      obtain ⟨k1, k2, k3, k4⟩ := ih _ st' h2
      have ha : a ∉ l := by
        intro hal
        have := k4 a hal
        simp [Function.update_self] at this
      refine ⟨fun x => ?_, by rw [k2], List.nodup_cons.2 ⟨ha, k3⟩, fun x hx => ?_⟩
      · rw [k1 x]
        by_cases hx : x = a
        · subst hx
          rw [if_neg ha, if_pos List.mem_cons_self]
          simp
        · simp only [List.mem_cons, hx, false_or]
          rw [Function.update_of_ne hx]
      · rcases List.mem_cons.1 hx with rfl | hx
        · exact hm
        · have := k4 x hx
          by_cases hxa : x = a
          · subst hxa; exact hm
          · simpa [Function.update_of_ne hxa] using this

/-- it does not fail if the dependencies are there -/
theorem dropGen_ok {n : N} : ∀ (l : List N) (hn : l.Nodup) (st : St N V), (∀ x ∈ l, n ∈ st.propDep x) →
    ∃ st', l.foldlM (fun (st : St N V) s => if n ∉ st.propDep s then (.error Err.crash : Except Err (St N V)) else pure { st with propDep := Function.update st.propDep s ((st.propDep s).erase n) }) st = .ok st' := by
  intro l
  induction l with
  | nil => intro _ st _; exact ⟨st, rfl⟩
  | cons a l ih =>
    intro hn st h
    rw [List.nodup_cons] at hn
    obtain ⟨st', h'⟩ := ih hn.2 { st with propDep := Function.update st.propDep a ((st.propDep a).erase n) } (fun x hx => by
      have : x ≠ a := fun e => hn.1 (e ▸ hx)
      simpa [Function.update_of_ne this] using h x (List.mem_cons_of_mem _ hx))
    refine ⟨st', ?_⟩
    rw [List.foldlM_cons, if_neg (not_not.2 (h a List.mem_cons_self))]
    exact h'

theorem exec_ctrl (dry : Bool) (o : Op N) (st st' : St N V) (h : exec p dry st o = .ok st') : CtrlStep p dry o st st' := by
  cases o with
  | clear => cases h; refine ⟨fun x => by simp [Op.operands], rfl, rfl, rfl, ?_, ?_⟩ <;> cases dry <;> simp [Op.operands]
  | gen n =>
    change genStep p dry n st = _ at h
    unfold genStep at h
    obtain ⟨s1, h1, h⟩ := bind_ok h
    obtain ⟨s2, h2, h⟩ := bind_ok h
    dsimp only at h
    obtain ⟨s3, h3, h6⟩ := bind_ok h
    clear h
    obtain ⟨d1, d2, -, -⟩ := dropGen _ _ _ h3
    cases dry with
    | true =>
      rw [prepare_dry] at h1
      have e1 := Except.ok.inj h1
      have e2 : s1 = s2 := Except.ok.inj h2
      have e3 : s3 = st' := Except.ok.inj h6
      clear h1 h2 h6 h3
      subst e3 e2 e1
      refine ⟨fun x => ?_, ?_, ?_, ?_, ?_, ?_⟩
      · rw [d1 x]; rfl
      all_goals rw [d2]; try rfl
    | false =>
      have c1 := ctrl_eq (prepare_real_ctrl p _ _ _ h1)
      unfold genCompute at h2
      simp only [Bool.false_eq_true, if_false] at h2
      obtain ⟨s4, h4, h2⟩ := bind_ok h2
      obtain ⟨s5, h5, h7⟩ := bind_ok h2
      have e7 := Except.ok.inj h7
      clear h7 h2
      subst e7
      have c4 := ctrl_eq (accommodate_ctrl p _ _ _ h4)
      have c5 := ctrl_eq (generate_ctrl p _ _ _ h5)
      simp only [Bool.false_eq_true, if_false] at h6
      have c6 := ctrl_eq (eraseUnneeded_ctrl p _ _ h6)
      obtain ⟨e1, e2, e3, e4, e5, e6⟩ := c6
      obtain ⟨a1, a2, a3, a4, a5, a6⟩ := c1
      obtain ⟨b1, b2, b3, b4, b5, b6⟩ := c4
      obtain ⟨g1, g2, g3, g4, g5, g6⟩ := c5
      refine ⟨fun x => ?_, ?_, ?_, ?_, ?_, ?_⟩
      · rw [e1]; simp only; rw [d1 x]; simp only; rw [g1, b1, a1]; rfl
      · rw [e2]; simp only; rw [d2]; simp only; rw [g2, b2, a2]; rfl
      · rw [e3]; simp only; rw [d2]; simp only; rw [g3, b3, a3]; rfl
      · rw [e4]; simp only; rw [d2]; simp only; rw [g4, b4, a4]; rfl
      · rw [e5]; simp only; rw [d2]; simp only; rw [g5, b5, a5]; rfl
      · rw [e6]; simp only; rw [d2]; simp only; rw [g6, b6, a6]; rfl
  | contr i a b =>
    change contrStep p dry i a b st = _ at h
    unfold contrStep at h
    dsimp only at h
    obtain ⟨s1, h1, h⟩ := bind_ok h
    obtain ⟨s2, h2, h⟩ := bind_ok h
    cases dry with
    | true =>
      rw [prepare_dry] at h1
      cases h1; cases h2; cases h
      exact ⟨fun x => by rw [dropDep_dep]; rfl, rfl, rfl, rfl, rfl, rfl⟩
    | false =>
      obtain ⟨a1, a2, a3, a4, a5, a6⟩ := ctrl_eq (prepare_real_ctrl p _ _ _ h1)
      simp only [Bool.false_eq_true, if_false] at h2 h
      obtain ⟨b1, b2, b3, b4, b5, b6⟩ := ctrl_eq (computeContr_ctrl _ _ _ _ _ h2)
      obtain ⟨s3, h3, h⟩ := bind_ok h
      cases h
      obtain ⟨e1, e2, e3, e4, e5, e6⟩ := ctrl_eq (eraseUnneeded_ctrl p _ _ h3)
      refine ⟨fun x => ?_, ?_, ?_, ?_, ?_, ?_⟩
      · simp only; rw [e1, dropDep_dep, b1, a1]; rfl
      · simp only; rw [e2]; simp only [dropDep, List.foldl_cons, List.foldl_nil]; rw [b2, a2]; rfl
      · simp only; rw [e3]; simp only [dropDep, List.foldl_cons, List.foldl_nil]; rw [b3, a3]; rfl
      · simp only; rw [e4]; simp only [dropDep, List.foldl_cons, List.foldl_nil]; rw [b4, a4]; rfl
      · simp only; rw [e5]; simp only [dropDep, List.foldl_cons, List.foldl_nil]; rw [b5, a5]; rfl
      · simp only; rw [e6]; simp only [dropDep, List.foldl_cons, List.foldl_nil]; rw [b6, a6]; rfl
  | side i a b =>
    change sideStep p dry i a b st = _ at h
    unfold sideStep at h
    dsimp only at h
    obtain ⟨s1, h1, h⟩ := bind_ok h
    obtain ⟨s2, h2, h⟩ := bind_ok h
    cases dry with
    | true =>
      rw [prepare_dry] at h1
      cases h1; cases h2; cases h
      exact ⟨fun x => by rw [dropDep_dep]; rfl, rfl, rfl, rfl, rfl, rfl⟩
    | false =>
      obtain ⟨a1, a2, a3, a4, a5, a6⟩ := ctrl_eq (prepare_real_ctrl p _ _ _ h1)
      simp only [Bool.false_eq_true, if_false] at h2 h
      obtain ⟨b1, b2, b3, b4, b5, b6⟩ := ctrl_eq (computeSide_ctrl _ _ _ _ _ h2)
      obtain ⟨s3, h3, h⟩ := bind_ok h
      cases h
      obtain ⟨e1, e2, e3, e4, e5, e6⟩ := ctrl_eq (eraseUnneeded_ctrl p _ _ h3)
      refine ⟨fun x => ?_, ?_, ?_, ?_, ?_, ?_⟩
      · simp only; rw [e1, dropDep_dep, b1, a1]; rfl
      · simp only; rw [e2]; simp only [dropDep, List.foldl_cons, List.foldl_nil]; rw [b2, a2]; rfl
      · simp only; rw [e3]; simp only [dropDep, List.foldl_cons, List.foldl_nil]; rw [b3, a3]; rfl
      · simp only; rw [e4]; simp only [dropDep, List.foldl_cons, List.foldl_nil]; rw [b4, a4]; rfl
      · simp only; rw [e5]; simp only [dropDep, List.foldl_cons, List.foldl_nil]; rw [b5, a5]; rfl
      · simp only; rw [e6]; simp only [dropDep, List.foldl_cons, List.foldl_nil]; rw [b6, a6]; rfl

/-! ### The loop as a sequence of operations -/

/-- the sides which can be computed -/
def canSides (C : Finset N) (S : Finset N) : List (N × N × N) := p.sides.filter fun x => x.2.1 ∈ C ∧ x.2.2 ∈ C ∧ x.1 ∉ S

/-- operations done after each propagator -/
def blockOps (n : N) (C : Finset N) (D : Finset Nat) (S : Finset N) : List (Op N) :=
  .gen n :: ((canBeComputed p (insert n C) D).map fun x => Op.contr x.1 x.2.1 x.2.2) ++ (.clear :: (canSides p (insert n C) S).map fun x => Op.side x.1 x.2.1 x.2.2)

/-- the operations done for a list of propagators, given what was computed -/
def opsFrom (need : N → Bool) : List N → Finset N → Finset Nat → Finset N → List (Op N)
  | [], _, _, _ => []
  | n :: l, C, D, S => if need n then
      blockOps p n C D S ++ opsFrom need l (insert n C) (D ∪ ((canBeComputed p (insert n C) D).map Prod.fst).toFinset) (S ∪ ((canSides p (insert n C) S).map Prod.fst).toFinset)
    else opsFrom need l C D S

theorem foldlM_map' {α β σ : Type} (f : σ → β → Except Err σ) (g : α → β) (l : List α) (s : σ) : (l.map g).foldlM f s = l.foldlM (fun s x => f s (g x)) s := by
  rw [List.foldlM_map]

theorem contrs_ctrl (dry : Bool) : ∀ (l : List (Nat × N × N)) (st st' : St N V), (l.map fun x => Op.contr x.1 x.2.1 x.2.2).foldlM (exec p dry) st = .ok st' →
    st'.computedProps = st.computedProps ∧ st'.computed2pts = st.computed2pts ∪ (l.map Prod.fst).toFinset ∧ st'.computedSides = st.computedSides := by
  intro l
  induction l with
  | nil => intro st st' h; cases h; simp
  | cons x l ih =>
    intro st st' h
    rw [List.map_cons, List.foldlM_cons] at h
    obtain ⟨s1, h1, h2⟩ := bind_ok h
    have c := exec_ctrl p dry _ _ _ h1
    obtain ⟨a1, a2, a3⟩ := ih s1 st' h2
    refine ⟨by rw [a1, c.props]; rfl, ?_, by rw [a3, c.sides]; rfl⟩
    rw [a2, c.two, List.map_cons, List.toFinset_cons]
    show insert x.1 _ ∪ _ = _
    ext y
    simp only [Finset.mem_union, Finset.mem_insert]
    tauto

theorem sides_ctrl (dry : Bool) : ∀ (l : List (N × N × N)) (st st' : St N V), (l.map fun x => Op.side x.1 x.2.1 x.2.2).foldlM (exec p dry) st = .ok st' →
    st'.computedProps = st.computedProps ∧ st'.computed2pts = st.computed2pts ∧ st'.computedSides = st.computedSides ∪ (l.map Prod.fst).toFinset := by
  intro l
  induction l with
  | nil => intro st st' h; cases h; simp
  | cons x l ih =>
    intro st st' h
    rw [List.map_cons, List.foldlM_cons] at h
    obtain ⟨s1, h1, h2⟩ := bind_ok h
    have c := exec_ctrl p dry _ _ _ h1
    obtain ⟨a1, a2, a3⟩ := ih s1 st' h2
    refine ⟨by rw [a1, c.props]; rfl, by rw [a2, c.two]; rfl, ?_⟩
    rw [a3, c.sides, List.map_cons, List.toFinset_cons]
    show insert x.1 _ ∪ _ = _
    ext y
    simp only [Finset.mem_union, Finset.mem_insert]
    tauto

/-- the loop on the sides -/
theorem sides_loop (dry : Bool) : ∀ (l : List (N × N × N)), (l.map Prod.fst).Nodup → ∀ (C S : Finset N) (st : St N V), st.computedProps = C → (∀ x ∈ l, (x.1 ∈ st.computedSides ↔ x.1 ∈ S)) →
    l.foldlM (fun (st : St N V) x => if x.2.1 ∈ st.computedProps ∧ x.2.2 ∈ st.computedProps ∧ x.1 ∉ st.computedSides then sideStep p dry x.1 x.2.1 x.2.2 st else pure st) st =
      ((l.filter fun x => x.2.1 ∈ C ∧ x.2.2 ∈ C ∧ x.1 ∉ S).map fun x => Op.side x.1 x.2.1 x.2.2).foldlM (exec p dry) st := by
  intro l
  induction l with
  | nil => intro _ C S st _ _; rfl
  | cons x l ih =>
    intro hn C S st hC hS
    rw [List.map_cons, List.nodup_cons] at hn
    rw [List.foldlM_cons]
    by_cases hc : x.2.1 ∈ C ∧ x.2.2 ∈ C ∧ x.1 ∉ S
    · rw [if_pos (by rw [hC, hS x List.mem_cons_self]; exact hc), List.filter_cons_of_pos (by simpa using hc), List.map_cons, List.foldlM_cons]
      show _ = (sideStep p dry x.1 x.2.1 x.2.2 st >>= _)
      rcases e : sideStep p dry x.1 x.2.1 x.2.2 st with er | s1
      · rfl
      · have c := exec_ctrl p dry (.side x.1 x.2.1 x.2.2) st s1 e
        exact ih hn.2 C S s1 (by rw [c.props]; exact hC) (fun y hy => by
          rw [c.sides]
          show y.1 ∈ insert x.1 _ ↔ _
          simp only [Finset.mem_insert]
          rw [hS y (List.mem_cons_of_mem _ hy)]
          have : y.1 ≠ x.1 := fun e => hn.1 (e ▸ List.mem_map_of_mem hy)
          tauto)
    · rw [if_neg (by rw [hC, hS x List.mem_cons_self]; exact hc), List.filter_cons_of_neg (by simpa using hc)]
      exact ih hn.2 C S st hC (fun y hy => hS y (List.mem_cons_of_mem _ hy))

theorem body_ops (hs : (p.sides.map Prod.fst).Nodup) (dry : Bool) (n : N) (st : St N V) (hn : st.propDep n ≠ ∅) :
    body p dry st n = (blockOps p n st.computedProps st.computed2pts st.computedSides).foldlM (exec p dry) st := by
  unfold body blockOps
  rw [if_neg hn, List.foldlM_append, List.foldlM_cons]
  show _ = ((genStep p dry n st >>= _) >>= _)
  rcases e : genStep p dry n st with er | s1
  · rfl
  · have c := exec_ctrl p dry (.gen n) st s1 e
    show ((canBeComputed p s1.computedProps s1.computed2pts).foldlM _ s1 >>= _) = (((canBeComputed p (insert n st.computedProps) st.computed2pts).map fun x => Op.contr x.1 x.2.1 x.2.2).foldlM (exec p dry) s1 >>= _)
    rw [show s1.computedProps = insert n st.computedProps from c.props, show s1.computed2pts = st.computed2pts from c.two, List.foldlM_map]
    refine bind_same rfl fun s2 e2 => ?_
    have e2' : ((canBeComputed p (insert n st.computedProps) st.computed2pts).map fun x => Op.contr x.1 x.2.1 x.2.2).foldlM (exec p dry) s1 = .ok s2 := by
      rw [List.foldlM_map]; exact e2
    obtain ⟨a1, a2, a3⟩ := contrs_ctrl p dry _ _ _ e2'
    rw [List.foldlM_cons]
    exact sides_loop p dry p.sides hs (insert n st.computedProps) st.computedSides { s2 with lib := fun _ => none } (by simp only; rw [a1]; exact c.props) (fun x _ => by
      simp only; rw [a3, show s1.computedSides = st.computedSides from c.sides])

theorem block_ctrl (dry : Bool) (n : N) (st st' : St N V) (C : Finset N) (D : Finset Nat) (S : Finset N) (h1 : st.computedProps = C) (h2 : st.computed2pts = D) (h3 : st.computedSides = S)
    (h : (blockOps p n C D S).foldlM (exec p dry) st = .ok st') :
    st'.computedProps = insert n C ∧ st'.computed2pts = D ∪ ((canBeComputed p (insert n C) D).map Prod.fst).toFinset ∧
    st'.computedSides = S ∪ ((canSides p (insert n C) S).map Prod.fst).toFinset := by
  unfold blockOps at h
  rw [List.foldlM_append, List.foldlM_cons] at h
  obtain ⟨s1, k1, k2⟩ := bind_ok h
  obtain ⟨s0, k0, k1⟩ := bind_ok k1
  have c := exec_ctrl p dry _ _ _ k0
  obtain ⟨a1, a2, a3⟩ := contrs_ctrl p dry _ _ _ k1
  rw [List.foldlM_cons] at k2
  obtain ⟨s3, k3, k2⟩ := bind_ok k2
  cases k3
  obtain ⟨b1, b2, b3⟩ := sides_ctrl p dry _ _ _ k2
  refine ⟨?_, ?_, ?_⟩
  · rw [b1]; simp only; rw [a1, c.props, h1]; rfl
  · rw [b2]; simp only; rw [a2, c.two, h2]; rfl
  · rw [b3]; simp only; rw [a3, c.sides, h3]; rfl

/-- operations leave the dependencies of what is not used -/
theorem ops_dep (dry : Bool) : ∀ (l : List (Op N)) (st st' : St N V), l.foldlM (exec p dry) st = .ok st' → ∀ x, (∀ o ∈ l, x ∉ o.operands p) → st'.propDep x = st.propDep x := by
  intro l
  induction l with
  | nil => intro st st' h x _; cases h; rfl
  | cons o l ih =>
    intro st st' h x hx
    rw [List.foldlM_cons] at h
    obtain ⟨s1, h1, h2⟩ := bind_ok h
    rw [ih s1 st' h2 x fun o ho => hx o (List.mem_cons_of_mem _ ho), (exec_ctrl p dry _ _ _ h1).dep x, if_neg (hx o List.mem_cons_self)]

theorem mem_canBeComputed {C : Finset N} {D : Finset Nat} {x : Nat × N × N} : x ∈ canBeComputed p C D ↔ (x.2, x.1) ∈ p.contr.zipIdx ∧ x.2.1 ∈ C ∧ x.2.2 ∈ C ∧ x.1 ∉ D := by
  unfold canBeComputed
  rw [List.mem_insertionSort, List.mem_filter, List.mem_map]
  constructor
  · rintro ⟨⟨y, hy, rfl⟩, h⟩
    simpa using ⟨hy, by simpa using h⟩
  · rintro ⟨h, h'⟩
    exact ⟨⟨_, h, rfl⟩, by simpa using h'⟩

theorem mem_canSides {C S : Finset N} {x : N × N × N} : x ∈ canSides p C S ↔ x ∈ p.sides ∧ x.2.1 ∈ C ∧ x.2.2 ∈ C ∧ x.1 ∉ S := by
  simp [canSides]

theorem block_operands {n x : N} {C : Finset N} {D : Finset Nat} {S : Finset N} {o : Op N} (ho : o ∈ blockOps p n C D S) (hx : x ∈ o.operands p) : x ∈ p.sources n ∨ x ∈ insert n C := by
  unfold blockOps at ho
  simp only [List.cons_append, List.mem_cons, List.mem_append, List.mem_map] at ho
  rcases ho with rfl | ⟨y, hy, rfl⟩ | rfl | ⟨y, hy, rfl⟩
  · exact .inl hx
  · have h := (mem_canBeComputed p).1 hy
    rcases List.mem_cons.1 hx with rfl | hx
    · exact .inr h.2.1
    · rw [List.mem_singleton.1 hx]; exact .inr h.2.2.1
  · simp [Op.operands] at hx
  · have h := (mem_canSides p).1 hy
    rcases List.mem_cons.1 hx with rfl | hx
    · exact .inr h.2.1
    · rw [List.mem_singleton.1 hx]; exact .inr h.2.2.1

/-- the loop on the propagators does the sequence of operations -/
theorem loop_ops (hs : (p.sides.map Prod.fst).Nodup) (dry : Bool) (need : N → Bool) : ∀ (l : List N) (C : Finset N) (D : Finset Nat) (S : Finset N), l.Nodup → (∀ x ∈ l, x ∉ C) →
    l.Pairwise (fun n m => m ∉ p.sources n) → (∀ n ∈ l, n ∉ p.sources n) → ∀ st : St N V, st.computedProps = C → st.computed2pts = D → st.computedSides = S →
    (∀ n ∈ l, st.propDep n ≠ ∅ ↔ need n = true) → l.foldlM (body p dry) st = (opsFrom p need l C D S).foldlM (exec p dry) st := by
  intro l
  induction l with
  | nil => intro C D S _ _ _ _ st _ _ _ _; rfl
  | cons n l ih =>
    intro C D S hn hC hp hself st h1 h2 h3 hneed
    rw [List.nodup_cons] at hn
    rw [List.pairwise_cons] at hp
    unfold opsFrom
    rw [List.foldlM_cons]
    by_cases hnn : need n = true
    · rw [if_pos hnn, List.foldlM_append, body_ops p hs dry n st ((hneed n List.mem_cons_self).2 hnn), h1, h2, h3]
      rcases e : (blockOps p n C D S).foldlM (exec p dry) st with er | s1
      · rfl
      · obtain ⟨a1, a2, a3⟩ := block_ctrl p dry n st s1 C D S h1 h2 h3 e
        refine ih _ _ _ hn.2 (fun x hx => ?_) hp.2 (fun x hx => hself x (List.mem_cons_of_mem _ hx)) s1 a1 a2 a3 (fun x hx => ?_)
        · rw [Finset.mem_insert]
          rintro (rfl | h)
          · exact hn.1 hx
          · exact hC x (List.mem_cons_of_mem _ hx) h
        · rw [ops_dep p dry _ _ _ e x, hneed x (List.mem_cons_of_mem _ hx)]
          intro o ho hxo
          rcases block_operands p ho hxo with h | h
          · exact hp.1 x hx h
          · rcases Finset.mem_insert.1 h with rfl | h
            · exact hn.1 hx
            · exact hC x (List.mem_cons_of_mem _ hx) h
    · rw [if_neg hnn]
      have : body p dry st n = .ok st := by
        unfold body
        rw [if_pos (by by_contra hc; exact hnn ((hneed n List.mem_cons_self).1 hc))]
        rfl
      rw [this]
      exact ih C D S hn.2 (fun x hx => hC x (List.mem_cons_of_mem _ hx)) hp.2 (fun x hx => hself x (List.mem_cons_of_mem _ hx)) st h1 h2 h3 (fun x hx => hneed x (List.mem_cons_of_mem _ hx))

end

end Nissa.Hit
