import Verif.Nice.Script

/-! # C75: more steps allowed never change an outcome -/

set_option linter.all false

namespace Nissa.Nice

variable {F : Type}

theorem bind_def {α β : Type} (m : M F α) (f : α → M F β) (s : St F) : (m >>= f) s = match m s with | .ok a s' => f a s' | .err => .err | .ub => .ub | .more => .more := rfl

theorem pure_def {α : Type} (a : α) (s : St F) : (pure a : M F α) s = .ok a s := rfl

/-- the second computation is as the first, unless the first lacks steps -/
def Le {α : Type} (m m' : M F α) : Prop := ∀ s, m s = .more ∨ m' s = m s

theorem Le.refl {α : Type} (m : M F α) : Le m m := fun s => Or.inr rfl

theorem Le.bind {α β : Type} {m m' : M F α} {f f' : α → M F β} (h : Le m m') (hf : ∀ a, Le (f a) (f' a)) : Le (m >>= f) (m' >>= f') := by
  intro s
  rw [bind_def, bind_def]
  rcases h s with h1 | h1
  · left; rw [h1]
  · rw [h1]
    cases m s with
    | ok a s' => exact hf a s'
    | err => right; rfl
    | ub => right; rfl
    | more => left; rfl

theorem Le.bind' {α β : Type} {m : M F α} {f f' : α → M F β} (hf : ∀ a, Le (f a) (f' a)) : Le (m >>= f) (m >>= f') := Le.bind (Le.refl m) hf

theorem Le.withEnv {α : Type} {m m' : M F α} (e : Nat) (h : Le m m') : Le (withEnv e m) (withEnv e m') := by
  intro s
  unfold Nice.withEnv
  rcases h { s with cur := e } with h1 | h1
  · left; rw [h1]
  · right; rw [h1]

theorem Le.pushed {α : Type} {m m' : M F α} (h : Le m m') : Le (pushed m) (pushed m') := by
  unfold Nice.pushed
  exact Le.bind' fun p => Le.bind' fun e => Le.withEnv e h

section
variable {rec rec' : Cmd F → M F (ER F)} (hr : ∀ c, Le (rec c) (rec' c))
include hr

theorem eachEl_mono (f : Nat) (l : List Nat) : Le (eachEl rec f l) (eachEl rec' f l) := by
  induction l with
  | nil => exact Le.refl _
  | cons c l ih => exact Le.bind' fun fv => Le.bind (hr _) fun _ => ih

theorem callHost_mono (O : Flt F) (h : Host) (args : List Nat) : Le (callHost O rec h args) (callHost O rec' h args) := by
  cases h <;> try exact Le.refl _
  unfold callHost
  dsimp only
  split
  · refine Le.bind' fun v => ?_
    split
    · exact Le.bind (eachEl_mono hr _ _) fun _ => Le.refl _
    · exact Le.refl _
  · exact Le.refl _

theorem callFunction_mono (O : Flt F) (f : Value F) (args : List Nat) : Le (callFunction O rec f args) (callFunction O rec' f args) := by
  unfold callFunction
  split
  · split
    · exact Le.refl _
    · exact Le.bind' fun e => Le.withEnv e (Le.bind' fun _ => hr _)
  · exact Le.bind (callHost_mono hr O _ _) fun _ => Le.refl _
  · exact Le.refl _
  · exact Le.refl _

theorem evalArgs_mono (l : List (String × Node F)) : Le (evalArgs rec l) (evalArgs rec' l) := by
  induction l with
  | nil => exact Le.refl _
  | cons a l ih =>
    obtain ⟨n, e⟩ := a
    exact Le.bind (hr _) fun r => Le.bind' fun v => Le.bind' fun c => Le.bind ih fun _ => Le.refl _

theorem fillDefaults_mono (ds : List (Option (Node F))) (l : List (Option Nat)) : Le (fillDefaults rec ds l) (fillDefaults rec' ds l) := by
  induction ds generalizing l with
  | nil =>
    cases l with
    | nil => exact Le.refl _
    | cons a l => cases a <;> exact Le.refl _
  | cons d ds ih =>
    cases l with
    | nil => cases d <;> exact Le.refl _
    | cons a l =>
      cases a with
      | some c => cases d <;> exact Le.bind (ih l) fun _ => Le.refl _
      | none =>
        cases d with
        | none => exact Le.refl _
        | some d => exact Le.bind (hr _) fun r => Le.bind' fun v => Le.bind' fun c => Le.bind (ih l) fun _ => Le.refl _

theorem bindArgs_mono (f : Value F) (as : List (String × Nat)) : Le (bindArgs rec f as) (bindArgs rec' f as) := by
  unfold bindArgs
  split
  · exact Le.refl _
  · exact Le.bind' fun s => Le.bind' fun s => Le.bind' fun s => fillDefaults_mono hr _ _
  · exact Le.bind' fun s => Le.bind' fun s => fillDefaults_mono hr _ _
  · exact Le.refl _

theorem evalNodes_mono (l : List (Node F)) : Le (evalNodes rec l) (evalNodes rec' l) := by
  induction l with
  | nil => exact Le.refl _
  | cons n l ih =>
    unfold evalNodes
    split
    · exact hr _
    · exact Le.bind (hr _) fun _ => ih

theorem step_mono (O : Flt F) (lr : Bool) (c : Cmd F) : Le (step O lr rec c) (step O lr rec' c) := by
  cases c with
  | call f args => exact callFunction_mono hr O f args
  | loop check incr body =>
    refine Le.bind (hr _) fun r => Le.bind' fun v => Le.bind' fun b => ?_
    split
    · exact Le.bind (hr _) fun _ => Le.bind (hr _) fun _ => hr _
    · exact Le.refl _
  | node n =>
    cases n with
    | nodes l => exact Le.pushed (evalNodes_mono hr l)
    | unaryRef a => exact Le.bind (hr _) fun r => Le.refl _
    | unOp op a => exact Le.bind (hr _) fun r => Le.refl _
    | binOp op a b =>
      unfold step
      dsimp only
      split
      · exact Le.bind (hr _) fun r => Le.bind' fun v => Le.bind (hr _) fun r => Le.refl _
      · exact Le.bind (hr _) fun r => Le.bind' fun v => Le.bind (hr _) fun r => Le.refl _
    | for_ l => exact Le.pushed (Le.bind' fun n => Le.bind (hr _) fun _ => Le.bind' fun _ => Le.bind' fun _ => Le.bind' fun _ => hr _)
    | if_ l =>
      refine Le.pushed (Le.bind' fun n => Le.bind (hr _) fun r => Le.bind' fun v => Le.bind' fun b => ?_)
      split
      · exact Le.bind' fun n => Le.bind (hr _) fun _ => Le.refl _
      · split
        · exact Le.bind' fun n => Le.bind (hr _) fun _ => Le.refl _
        · exact Le.refl _
    | id n => exact Le.refl _
    | postfix_ op a => exact Le.bind (hr _) fun r => Le.refl _
    | func p b => exact Le.refl _
    | funcDef n p b => exact Le.refl _
    | funcCall n as => exact Le.bind (evalArgs_mono hr as) fun a => Le.bind' fun cf => Le.bind' fun v => Le.bind (bindArgs_mono hr v a) fun cs => Le.bind' fun f => hr _
    | subscribe b s => exact Le.bind (hr _) fun b => Le.bind (hr _) fun s => Le.refl _
    | memberAccess b m => exact Le.bind (hr _) fun b => Le.refl _
    | structDef n m => exact Le.refl _
    | ret a => exact hr _
    | value v => exact Le.refl _
    | assign l r m => exact Le.bind (hr _) fun b => Le.bind (hr _) fun s => Le.refl _

end

theorem eval_succ (O : Flt F) (lr : Bool) (n : Nat) (c : Cmd F) : Le (eval O lr n c) (eval O lr (n + 1) c) := by
  induction n generalizing c with
  | zero => intro s; left; rfl
  | succ n ih => exact step_mono ih O lr c

theorem eval_le (O : Flt F) (lr : Bool) {n m : Nat} (h : n ≤ m) (c : Cmd F) : Le (eval O lr n c) (eval O lr m c) := by
  induction m with
  | zero =>
    rw [Nat.le_zero.mp h]
    exact Le.refl _
  | succ m ih =>
    by_cases h0 : n = m + 1
    · subst h0
      exact Le.refl _
    intro s
    rcases ih (by omega) s with h1 | h1
    · left; exact h1
    · rcases eval_succ O lr m c s with h2 | h2
      · left; rw [← h1, h2]
      · right; rw [h2, h1]

/-- **C75**.  The outcome of a script does not depend on the number of nested calls the model allows: if the evaluation ends (with a result, an error, or undefined behaviour) with two bounds, the outcome is the same -/
theorem C75_deterministic (O : Flt F) (lr : Bool) (n m : Nat) (c : Cmd F) (s : St F) (hn : eval O lr n c s ≠ .more) (hm : eval O lr m c s ≠ .more) : eval O lr n c s = eval O lr m c s := by
  rcases Nat.le_total n m with h | h
  · rcases eval_le O lr h c s with h1 | h1
    · exact absurd h1 hn
    · exact h1.symm
  · rcases eval_le O lr h c s with h1 | h1
    · exact absurd h1 hm
    · exact h1

end Nissa.Nice
