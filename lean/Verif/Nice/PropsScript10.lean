import Verif.Nice.PropsScript9
import Mathlib.Tactic.Ring
import Mathlib.Tactic.Linarith

/-! # C75: `seq`, and departures from what a user expects -/

set_option linter.all false

namespace Nissa.Nice

variable {F : Type}

theorem seqLoop_eq (max delta : Int) (hd : 0 < delta) (n : Nat) (k : Nat) (i : Int) (hk : n < k) (hn : ∀ j : Nat, j < n → i + j * delta < max) (hn' : max ≤ i + n * delta) (hi : -2 ^ 31 ≤ i) (hm : i + n * delta < 2 ^ 31) :
    seqLoop max delta k i = some ((List.range n).map fun j : Nat => i + j * delta) := by
  induction n generalizing k i with
  | zero =>
    obtain ⟨k, rfl⟩ : ∃ k', k = k' + 1 := ⟨k - 1, by omega⟩
    unfold seqLoop
    rw [if_neg (by simp at hn'; omega)]
    rfl
  | succ n ih =>
    obtain ⟨k, rfl⟩ : ∃ k', k = k' + 1 := ⟨k - 1, by omega⟩
    have h0 := hn 0 (by omega)
    simp at h0
    have hpos : (0 : Int) ≤ n * delta := Int.mul_nonneg (by omega) hd.le
    have he : i + ((n + 1 : Nat) : Int) * delta = i + delta + n * delta := by push_cast; ring
    rw [he] at hm hn'
    unfold seqLoop
    rw [if_pos h0, if_pos ⟨by norm_num at hi; omega, by norm_num at hm; omega⟩]
    rw [ih k (i + delta) (by omega) (fun j hj => by have := hn (j + 1) (by omega); push_cast at this; linarith [this]) hn' (by omega) hm]
    simp only [Option.map_some, List.range_succ_eq_map, List.map_cons, List.map_map, Option.some.injEq]
    refine congrArg₂ _ (by simp) (List.map_congr_left fun j _ => ?_)
    show i + delta + j * delta = i + ((j + 1 : Nat) : Int) * delta
    push_cast
    ring

theorem allocs_ok (vs : List (Value F)) (s : St F) : allocs vs s = .ok ((List.range vs.length).map fun j => s.cells.length + j) { s with cells := s.cells ++ vs } := by
  induction vs generalizing s with
  | nil =>
    show Res.ok _ _ = _
    simp
  | cons v vs ih =>
    show (alloc v >>= fun c => allocs vs >>= fun r => (pure (c :: r) : M F (List Nat))) s = _
    rw [bind_mk (m := alloc v) (a := s.cells.length) (s1 := { s with cells := s.cells ++ [v] }) rfl, bind_mk (ih _)]
    simp only [pure_def, List.length_append, List.length_cons, List.length_nil, List.range_succ_eq_map, List.map_cons, List.map_map, List.append_assoc, List.singleton_append]
    congr 1
    refine congrArg₂ _ (by simp) (List.map_congr_left fun j _ => ?_)
    simp only [Function.comp]
    omega

theorem seq_core (args : List Nat) (s : St F) (p : List Int) (min delta max : Int) (hp : (reads args >>= ints) s = .ok p s) (hq : (p = [max] ∧ min = 0 ∧ delta = 1) ∨ (p = [min, max] ∧ delta = 1) ∨ p = [min, delta, max]) (hl : args.length ≤ 3) (hd : 0 < delta) (n : Nat)
    (hn : ∀ j : Nat, j < n → min + j * delta < max) (hn' : max ≤ min + n * delta) (hi : -2 ^ 31 ≤ min) (hm : min + n * delta < 2 ^ 31) :
    hostSeq args s = .ok (.list ((List.range n).map fun j => s.cells.length + j)) { s with cells := s.cells ++ (List.range n).map fun j : Nat => Value.int (min + j * delta) } := by
  have hnk : n < 8589934592 := by
    have h1 : (n : Int) ≤ n * delta := le_mul_of_one_le_right (by omega) (by omega)
    norm_num at hi hm
    omega
  have hs := seqLoop_eq max delta hd n 8589934592 min hnk hn hn' hi hm
  unfold hostSeq
  rw [if_neg (by omega)]
  obtain ⟨vs, s1, h1, h2⟩ := bind_ok hp
  show (reads args >>= fun vs => ints vs >>= fun p => _) s = _
  rw [bind_mk h1, bind_mk h2]
  have fin : ∀ q : Int × Int × Int, q = (min, delta, max) → (match q with
      | (min, delta, max) => if delta = 0 then err else
        match seqLoop max delta 8589934592 min with
        | none => ub
        | some l => do
          let cs ← allocs (l.map Value.int)
          pure (.list cs) : M F (Value F)) s = .ok (.list ((List.range n).map fun j => s.cells.length + j)) { s with cells := s.cells ++ (List.range n).map fun j : Nat => Value.int (min + j * delta) } := by
    rintro q rfl
    dsimp only
    rw [if_neg (by omega), hs]
    dsimp only
    rw [bind_mk (allocs_ok _ s)]
    simp [pure_def, List.map_map, Function.comp_def]
  rcases hq with ⟨rfl, rfl, rfl⟩ | ⟨rfl, rfl⟩ | rfl
  · exact fin (0, 1, max) rfl
  · exact fin (min, 1, max) rfl
  · exact fin (min, delta, max) rfl

/-- **C76**.  `seq(max)`, `seq(min,max)`, `seq(min,step,max)` with positive step give a list of new elements with the values `min`, `min+step`, `min+2*step`, ... all those less than `max` (and none if `max ≤ min`), as long as the first not taken fits in 32 bits; nothing else changes -/
theorem C76_seq (s : St F) (c0 c1 c2 : Nat) (min delta max : Int) (hd : 0 < delta) (n : Nat) (hn : ∀ j : Nat, j < n → min + j * delta < max) (hn' : max ≤ min + n * delta) (hi : -2 ^ 31 ≤ min) (hm : min + n * delta < 2 ^ 31) :
    (s.cells[c0]? = some (.int min) → s.cells[c1]? = some (.int delta) → s.cells[c2]? = some (.int max) → hostSeq [c0, c1, c2] s = .ok (.list ((List.range n).map fun j => s.cells.length + j)) { s with cells := s.cells ++ (List.range n).map fun j : Nat => Value.int (min + j * delta) }) ∧
    (s.cells[c0]? = some (.int min) → delta = 1 → s.cells[c1]? = some (.int max) → hostSeq [c0, c1] s = .ok (.list ((List.range n).map fun j => s.cells.length + j)) { s with cells := s.cells ++ (List.range n).map fun j : Nat => Value.int (min + j * delta) }) ∧
    (min = 0 → delta = 1 → s.cells[c0]? = some (.int max) → hostSeq [c0] s = .ok (.list ((List.range n).map fun j => s.cells.length + j)) { s with cells := s.cells ++ (List.range n).map fun j : Nat => Value.int (min + j * delta) }) := by
  have rd : ∀ (c : Nat) (v : Value F), s.cells[c]? = some v → read c s = .ok v s := fun c v h => by unfold read; rw [h]
  refine ⟨fun h0 h1 h2 => ?_, fun h0 h1 h2 => ?_, fun h0 h1 h2 => ?_⟩
  · refine seq_core _ s [min, delta, max] min delta max ?_ (Or.inr (Or.inr rfl)) (by simp) hd n hn hn' hi hm
    have : reads [c0, c1, c2] s = .ok [.int min, .int delta, .int max] s := by
      simp only [reads, bind_def, rd _ _ h0, rd _ _ h1, rd _ _ h2, pure_def]
    rw [bind_mk this]
    rfl
  · refine seq_core _ s [min, max] min delta max ?_ (Or.inr (Or.inl ⟨rfl, h1⟩)) (by simp) hd n hn hn' hi hm
    have : reads [c0, c1] s = .ok [.int min, .int max] s := by
      simp only [reads, bind_def, rd _ _ h0, rd _ _ h2, pure_def]
    rw [bind_mk this]
    rfl
  · refine seq_core _ s [max] min delta max ?_ (Or.inl ⟨rfl, h0, h1⟩) (by simp) hd n hn hn' hi hm
    have : reads [c0] s = .ok [.int max] s := by
      simp only [reads]
      rw [bind_mk (rd _ _ h2)]
      rfl
    rw [bind_mk this]
    rfl

/-! ## Departures -/

/-- **C76** (violation).  An `if` without `else` whose condition is false is undefined behaviour: the missing branch is read out of the vector -/
theorem C76_violated_if (O : Flt F) (lr : Bool) (c : Exp) (a : Node F) (s : St F) (lay : Layout) (σ : Stack F) (hh : Holds s lay σ) (v : Value F) (hc : value O ([] :: σ) c = some v) (hv : pureVal (toBool O v) = some false) : ∃ K, ∀ k, K ≤ k → eval O lr k (.node (.if_ [treeE c, a])) s = .ub := by
  obtain ⟨L, hL⟩ := exp_complete O lr hh.enter c v hc
  refine ⟨L + 1, fun k hk => ?_⟩
  obtain ⟨k, rfl⟩ : ∃ k', k = k' + 1 := ⟨k - 1, by omega⟩
  show pushed (eval O lr k (.node (treeE c)) >>= fun r => asRhs r >>= fun v => toBool O v >>= fun t => if t then eval O lr k (.node a) >>= fun _ => (pure ER.none_ : M F (ER F)) else (ub : M F (ER F))) s = _
  rw [pushed_eq, rhs_elim (hL k (by omega)), bind_mk (((sl_toBool O v).ok _ _ _).mpr ⟨rfl, hv⟩), if_neg (by decide)]
  rfl

/-- **C76** (violation).  The assignments `+=`, `-=`, `*=`, `/=` always fail -/
theorem C76_violated_compound (O : Flt F) (lr : Bool) (k : Nat) (l r : Node F) (mode : Mode) (hm : mode ≠ .plain) (s s' : St F) (res : ER F) : eval O lr k (.node (.assign l r mode)) s ≠ .ok res s' := by
  intro h
  cases k with
  | zero => cases h
  | succ k =>
    obtain ⟨a, s1, h1, h2⟩ := bind_ok (show (eval O lr k (.node l) >>= fun l => eval O lr k (.node r) >>= fun r => asRhs r >>= fun v => set_ mode l v >>= fun _ => (pure l : M F (ER F))) s = _ from h)
    obtain ⟨b, s2, h3, h4⟩ := bind_ok h2
    obtain ⟨v, s3, h5, h6⟩ := bind_ok h4
    obtain ⟨u, s4, h7, h8⟩ := bind_ok h6
    obtain ⟨ref, val⟩ := a
    cases ref with
    | none => cases h7
    | some c => cases mode <;> first | exact hm rfl | cases h7

/-- **C76** (violation).  Using the result of a block (so of a function) that ended without a `return` among its own statements is undefined behaviour -/
theorem C76_violated_no_return (O : Flt F) (lr : Bool) (k : Nat) (l : List (Node F)) (hl : ∀ n ∈ l, isRet n = false) (s s' : St F) (r : ER F) (h : eval O lr k (.node (.nodes l)) s = .ok r s') : asRhs r s' = .ub := by
  cases k with
  | zero => cases h
  | succ k =>
    obtain ⟨s1, h1, rfl⟩ := pushed_ok (show pushed (evalNodes (eval O lr k) l) s = .ok r s' from h)
    have : ∀ (l : List (Node F)) (s s1 : St F), (∀ n ∈ l, isRet n = false) → evalNodes (eval O lr k) l s = .ok r s1 → r = ER.none_ := by
      intro l
      induction l with
      | nil => intro s s1 _ h; cases h; rfl
      | cons n l ih =>
        intro s s1 hl h
        unfold evalNodes at h
        rw [hl n (by simp), if_neg (by decide)] at h
        obtain ⟨_, s2, _, h2⟩ := bind_ok h
        exact ih s2 s1 (fun n hn => hl n (List.mem_cons_of_mem _ hn)) h2
    rw [this l _ s1 hl h1]
    rfl

/-- operations on a type with one element, for the examples -/
def O1 : Flt Unit := ⟨fun _ => (), fun _ _ => (), fun _ _ => (), fun _ _ => (), fun _ _ => (), fun _ => (), fun _ _ => false, fun _ _ => true, fun _ _ => true, fun _ => true, fun _ _ => (), fun _ _ => (), ()⟩

/-- the integers printed, or `none` if the script does not end well -/
def printed (lr : Bool) (l : List (Node Unit)) : Option (List Int) :=
  match eval O1 lr 60 (.node (.nodes l)) (initSt O1) with
  | .ok _ s => some (s.out.filterMap fun v => match v with | .int i => some i | _ => none)
  | _ => none

/-- `print(e);` -/
def prt (e : Node Unit) : Node Unit := .funcCall "print" [("", e)]
/-- an integer -/
def lit (i : Int) : Node Unit := .value (.int i)
/-- `x = e;` -/
def set1 (x : String) (e : Node Unit) : Node Unit := .assign (.id x) e .plain

/-- **C76** (violation).  A `return` inside an `if` does not end the function: `function f(x) { if(x) { return 1; } else { } return 2; } print(f(1));` prints 2 -/
theorem C76_violated_return (lr : Bool) : printed lr [.funcDef "f" [("x", false, none)] (.nodes [.if_ [.id "x", .nodes [.ret (lit 1)], .nodes []], .ret (lit 2)]), prt (.funcCall "f" [("", lit 1)])] = some [2] := by
  cases lr <;> decide +kernel

/-- **C76** (violation).  The value of an expression with side effects depends on the compiler: `x = 1; print(x++ + x);` -/
theorem C76_violated_order : printed true [set1 "x" (lit 1), prt (.binOp .sum (.postfix_ .inc (.id "x")) (.id "x"))] = some [3] ∧ printed false [set1 "x" (lit 1), prt (.binOp .sum (.postfix_ .inc (.id "x")) (.id "x"))] = some [2] := by
  constructor <;> decide +kernel

/-- **C76** (violation).  Assigning a list does not copy it: `a = makeVec(1, 2); b = a; b[0] = 5; print(a[0]);` prints 5 -/
theorem C76_violated_copy (lr : Bool) : printed lr [set1 "a" (.funcCall "makeVec" [("", lit 1), ("", lit 2)]), set1 "b" (.id "a"), .assign (.subscribe (.id "b") (lit 0)) (lit 5) .plain, prt (.subscribe (.id "a") (lit 0))] = some [5] := by
  cases lr <;> decide +kernel

/-- **C76** (violation).  The function given to `forEachEl` works on the elements, not on copies, although its parameter is not a reference: `a = seq(3); function f(x) { x = 7; } forEachEl(a, f); print(a[0], a[1], a[2]);` prints 7 7 7 -/
theorem C76_violated_forEachEl (lr : Bool) : printed lr [set1 "a" (.funcCall "makeVec" [("", lit 0), ("", lit 1), ("", lit 2)]), .funcDef "f" [("x", false, none)] (.nodes [set1 "x" (lit 7)]), .funcCall "forEachEl" [("", .id "a"), ("", .id "f")], prt (.subscribe (.id "a") (lit 0)), prt (.subscribe (.id "a") (lit 2))] = some [7, 7] := by
  cases lr <;> decide +kernel

/-- **C76** (violation).  `and` and `or` evaluate both arguments: `x = 0; y = (0 and x++); print(x);` prints 1 -/
theorem C76_violated_shortcut (lr : Bool) : printed lr [set1 "x" (lit 0), set1 "y" (.binOp .and (lit 0) (.postfix_ .inc (.id "x"))), prt (.id "x")] = some [1] := by
  cases lr <;> decide +kernel

/-- **C76** (violation).  The default of a parameter is evaluated where the function is called, not where it is defined: `function f(y = x) { return y; }` in a scope without `x` gives the `x` of the caller -/
theorem C76_violated_default (lr : Bool) : printed lr [.funcDef "f" [("y", false, some (.id "x"))] (.nodes [.ret (.id "y")]), .nodes [set1 "x" (lit 4), prt (.funcCall "f" [])], .nodes [set1 "x" (lit 9), prt (.funcCall "f" [])]] = some [4, 9] := by
  cases lr <;> decide +kernel

/-! ## Concrete cases -/

/-- the loop `s = 0; for(i = 1; i <= 5; i++) { s = s + i; } print(s);` prints 15; recursion, closures, arguments by name and members of structs work -/
example : printed true [set1 "s" (lit 0), .for_ [set1 "i" (lit 1), .binOp .le (.id "i") (lit 5), .postfix_ .inc (.id "i"), .nodes [set1 "s" (.binOp .sum (.id "s") (.id "i"))]], prt (.id "s")] = some [15] := by decide +kernel

example : printed true [.funcDef "f" [("a", false, none), ("b", false, some (lit 10))] (.nodes [.ret (.binOp .diff (.id "a") (.id "b"))]), prt (.funcCall "f" [("", lit 3)]), prt (.funcCall "f" [("b", lit 1), ("", lit 3)]), prt (.funcCall "f" [("b", lit 1), ("a", lit 8)])] = some [-7, 2, 7] := by decide +kernel

example : printed true [.structDef "P" [("x", some (lit 1)), ("y", some (lit 2))], set1 "p" (.funcCall "P" [("y", lit 5)]), .assign (.memberAccess (.id "p") "x") (lit 9) .plain, prt (.memberAccess (.id "p") "x"), prt (.memberAccess (.id "p") "y")] = some [9, 5] := by decide +kernel

/-- a state where a name is not visible from the current scope, with the hypotheses of the isolation theorems -/
example (O : Flt Unit) : ∃ s s' : St Unit, ∃ r, Good s ∧ eval O true 5 (.node (set1 "y" (lit 3))) s = .ok r s' ∧ s'.cells.length = s.cells.length + 1 := by
  refine ⟨initSt O, _, _, (C75_memory_safe O true).1, rfl, ?_⟩
  simp [initSt]

end Nissa.Nice
