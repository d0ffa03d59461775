import Verif.Nice.PropsScript8
import Mathlib.Tactic.NormNum
import Mathlib.Tactic.Push

/-! # C75: operators on integers, arguments of the calls, `seq`, departures from what a user expects -/

set_option linter.all false

namespace Nissa.Nice

variable {F : Type}

/-! ## Integers -/

/-- the result of an arithmetic operation: that of the integers, if it fits in 32 bits -/
def fits (i : Int) : Option (Value F) := if -2 ^ 31 ≤ i ∧ i < 2 ^ 31 then some (.int i) else none

/-- a truth value as integer -/
def flag (p : Prop) [Decidable p] : Option (Value F) := some (.int (if p then 1 else 0))

theorem pv_intRes (i : Int) : pureVal (intRes i : M F (Value F)) = fits i := by
  unfold intRes fits
  by_cases h : -2147483648 ≤ i ∧ i < 2147483648
  · rw [if_pos h, if_pos (by norm_num; exact h)]; rfl
  · rw [if_neg h, if_neg (by norm_num; omega)]; rfl

/-- **C76**.  The operators on integers are those of the integers when the result fits in 32 bits (the division truncates), and undefined otherwise; comparisons and logical operators give 0 or 1 -/
theorem C76_integers (O : Flt F) (a b : Int) :
    pureVal (binop O .sum (.int a) (.int b)) = fits (a + b) ∧ pureVal (binop O .diff (.int a) (.int b)) = fits (a - b) ∧ pureVal (binop O .prod (.int a) (.int b)) = fits (a * b) ∧
    (b ≠ 0 → pureVal (binop O .div (.int a) (.int b)) = fits (a.tdiv b)) ∧ (b ≠ 0 → ¬ (a = -2 ^ 31 ∧ b = -1) → pureVal (binop O .mod (.int a) (.int b)) = fits (a - b * a.tdiv b)) ∧
    (b = 0 → pureVal (binop O .div (.int a) (.int b)) = none ∧ pureVal (binop O .mod (.int a) (.int b)) = none) ∧
    pureVal (binop O .lt (.int a) (.int b)) = flag (a < b) ∧ pureVal (binop O .gt (.int a) (.int b)) = flag (b < a) ∧ pureVal (binop O .le (.int a) (.int b)) = flag (a ≤ b) ∧ pureVal (binop O .ge (.int a) (.int b)) = flag (b ≤ a) ∧
    pureVal (binop O .eq (.int a) (.int b)) = flag (a = b) ∧ pureVal (binop O .ne (.int a) (.int b)) = flag (a ≠ b) ∧ pureVal (binop O .or (.int a) (.int b)) = flag (a ≠ 0 ∨ b ≠ 0) ∧ pureVal (binop O .and (.int a) (.int b)) = flag (a ≠ 0 ∧ b ≠ 0) ∧
    pureVal (unop O .minus (.int a)) = fits (-a) ∧ pureVal (unop O .plus (.int a)) = some (.int a) ∧ pureVal (unop O .not (.int a)) = flag (a = 0) ∧
    pureVal (popVal O .inc (.int a)) = fits (a + 1) ∧ pureVal (popVal O .dec (.int a)) = fits (a - 1) := by
  have hb : ∀ (p : Prop) [Decidable p], pureVal (boolRes (decide p) : M F (Value F)) = flag p := by
    intro p _
    by_cases h : p <;> simp [boolRes, flag, h, pureVal, pure_def]
  refine ⟨pv_intRes _, pv_intRes _, pv_intRes _, fun h => ?_, fun h h' => ?_, fun h => ⟨?_, ?_⟩, hb _, hb _, hb _, hb _, hb _, hb _, ?_, ?_, pv_intRes _, rfl, ?_, pv_intRes _, pv_intRes _⟩
  · show pureVal (if b = 0 then ub else intRes (Int.tdiv a b) : M F (Value F)) = _
    rw [if_neg h, pv_intRes]
  · show pureVal (if b = 0 ∨ (a = -2147483648 ∧ b = -1) then ub else intRes (Int.tmod a b) : M F (Value F)) = _
    rw [if_neg (by norm_num at h'; push_neg; exact ⟨h, h'⟩), pv_intRes, Int.tmod_def]
  · show pureVal (if b = 0 then ub else intRes (Int.tdiv a b) : M F (Value F)) = _
    rw [if_pos h]; rfl
  · show pureVal (if b = 0 ∨ (a = -2147483648 ∧ b = -1) then ub else intRes (Int.tmod a b) : M F (Value F)) = _
    rw [if_pos (Or.inl h)]; rfl
  · show pureVal (boolRes (decide (a ≠ 0) || decide (b ≠ 0)) : M F (Value F)) = _
    rw [← hb]
    congr 2
    by_cases h1 : a = 0 <;> by_cases h2 : b = 0 <;> simp [h1, h2]
  · show pureVal (boolRes (decide (a ≠ 0) && decide (b ≠ 0)) : M F (Value F)) = _
    rw [← hb]
    congr 2
    by_cases h1 : a = 0 <;> by_cases h2 : b = 0 <;> simp [h1, h2]
  · show pureVal (boolRes (!decide (a ≠ 0)) : M F (Value F)) = _
    rw [← hb]
    congr 2
    by_cases h1 : a = 0 <;> simp [h1]

/-! ## Arguments of the calls -/

/-- the arguments given without a name -/
def positional (as : List (String × Nat)) : List Nat := (as.filter fun a => a.1 == "").map (·.2)

/-- the last argument given with the name -/
def named (as : List (String × Nat)) (name : String) : Option Nat := ((as.filter fun a => a.1 == name).map (·.2)).getLast?

/-- the argument a parameter gets: that with its name, otherwise that in its position -/
def given (names : List String) (as : List (String × Nat)) (i : Nat) : Option Nat :=
  match named as (names.getD i "") with
  | some c => some c
  | none => (positional as)[i]?

/-- the slots filled so far by the unnamed arguments -/
def filled (n : Nat) (l : List Nat) : List (Option Nat) := (List.range n).map fun i => l[i]?

theorem filled_length (n : Nat) (l : List Nat) : (filled n l).length = n := by simp [filled]

theorem filled_get (n : Nat) (l : List Nat) (i : Nat) (hi : i < n) : (filled n l)[i]? = some l[i]? := by simp [filled, hi]

theorem filled_findIdx (n : Nat) (l : List Nat) (hl : l.length ≤ n) : (filled n l).findIdx (fun o => o.isNone) = l.length := by
  by_cases h : l.length = n
  · rw [List.findIdx_eq_length.mpr, filled_length, h]
    intro o ho
    obtain ⟨i, hi, rfl⟩ := List.mem_map.mp ho
    have hi' := List.mem_range.mp hi
    rw [List.getElem?_eq_getElem (by omega)]
    rfl
  · have hlt : l.length < n := by omega
    rw [List.findIdx_eq (by rw [filled_length]; exact hlt)]
    constructor
    · have : (filled n l)[l.length]'(by rw [filled_length]; exact hlt) = none := by simp [filled]
      rw [this]; rfl
    · intro j hj
      have : (filled n l)[j]'(by rw [filled_length]; omega) = some (l[j]'hj) := by simp [filled, hj]
      rw [this]; rfl

theorem filled_set (n : Nat) (l : List Nat) (c : Nat) (hl : l.length < n) : (filled n l).set l.length (some c) = filled n (l ++ [c]) := by
  refine List.ext_getElem? fun i => ?_
  rw [List.getElem?_set]
  by_cases h : l.length = i
  · subst h
    rw [if_pos rfl, if_pos (by rw [filled_length]; exact hl), filled_get _ _ _ hl]
    simp
  · rw [if_neg h]
    by_cases hi : i < n
    · rw [filled_get _ _ _ hi, filled_get _ _ _ hi, List.getElem?_append]
      split
      · rfl
      · rw [List.getElem?_eq_none (by omega), List.getElem?_eq_none (by simp; omega)]
    · rw [List.getElem?_eq_none (by rw [filled_length]; omega), List.getElem?_eq_none (by rw [filled_length]; omega)]

/-- the unnamed arguments take the slots in order -/
theorem insert_unnamed (names : List String) (as : List (String × Nat)) (l : List Nat) (hl : l.length ≤ names.length) : (insertArgs names false false as (filled names.length l) : M F _) = if names.length < l.length + (positional as).length then err else pure (filled names.length (l ++ positional as)) := by
  induction as generalizing l with
  | nil =>
    have : ¬ names.length < l.length + (positional []).length := by simp [positional]; omega
    rw [if_neg this]
    simp [positional, insertArgs]
  | cons a as ih =>
    obtain ⟨name, c⟩ := a
    unfold insertArgs
    dsimp only
    by_cases hn : name = ""
    · subst hn
      have hp : positional (("", c) :: as) = c :: positional as := by simp [positional]
      simp only [bne_self_eq_false, Bool.false_eq_true, if_false, Bool.false_and, filled_findIdx _ _ hl, filled_length]
      rw [hp]
      by_cases h1 : names.length ≤ l.length
      · rw [if_pos h1, if_pos (by simp only [List.length_cons]; omega)]
      · rw [if_neg h1, filled_set _ _ _ (by omega), ih (l ++ [c]) (by simp; omega)]
        simp only [List.length_append, List.length_cons, List.length_nil, List.append_assoc, List.cons_append, List.nil_append]
        have : l.length + (0 + 1) + (positional as).length = l.length + ((positional as).length + 1) := by omega
        rw [this]
    · have h1 : (name != "") = true := by simpa using hn
      have hp : positional ((name, c) :: as) = positional as := by simp [positional, hn]
      rw [if_pos (by rw [h1]; rfl), ih l hl, hp]

/-- the slots with the named arguments put over the others -/
def over (names : List String) (as : List (String × Nat)) (slots : List (Option Nat)) : List (Option Nat) := (List.range names.length).map fun i =>
  match named as (names.getD i "") with
  | some c => some c
  | none => (slots[i]?).join

theorem named_cons (name : String) (c : Nat) (as : List (String × Nat)) (x : String) : named ((name, c) :: as) x = match named as x with | some d => some d | none => if name = x then some c else none := by
  unfold named
  by_cases h : name = x
  · subst h
    simp only [List.filter_cons, beq_self_eq_true, if_true, List.map_cons]
    cases ((as.filter fun a => a.1 == name).map (·.2)) with
    | nil => rfl
    | cons d l =>
      rw [List.getLast?_cons_cons]
      cases hg : (d :: l).getLast? with
      | none => simp at hg
      | some e => rfl
  · have : (name == x) = false := by simpa using h
    simp only [List.filter_cons, this, if_neg h, Bool.false_eq_true, if_false]
    cases ((as.filter fun a => a.1 == x).map (·.2)).getLast? <;> rfl

theorem over_set (names : List String) (hn : names.Nodup) (name : String) (c : Nat) (as : List (String × Nat)) (slots : List (Option Nat)) (hs : slots.length = names.length) (hm : name ∈ names) : over names as (slots.set (names.findIdx (· == name)) (some c)) = over names ((name, c) :: as) slots := by
  have hlt : names.findIdx (· == name) < names.length := List.findIdx_lt_length_of_exists ⟨name, hm, by simp⟩
  have hg : names[names.findIdx (· == name)] = name := by simpa using List.findIdx_getElem (w := hlt)
  unfold over
  refine List.map_congr_left fun i hi => ?_
  have hi' := List.mem_range.mp hi
  rw [named_cons]
  cases named as (names.getD i "") with
  | some d => rfl
  | none =>
    dsimp only
    have hgi : names.getD i "" = names[i] := by simp [List.getD, hi']
    rw [hgi, List.getElem?_set]
    by_cases h : names.findIdx (· == name) = i
    · subst h
      rw [if_pos rfl, if_pos (by omega), if_pos hg.symm]
      rfl
    · rw [if_neg h, if_neg]
      intro e
      have : names[i] = names[names.findIdx (· == name)] := by rw [hg]; exact e.symm
      exact h ((List.Nodup.getElem_inj_iff hn).mp this).symm

theorem insert_named (names : List String) (hn : names.Nodup) (as : List (String × Nat)) (slots : List (Option Nat)) (hs : slots.length = names.length) (he : "" ∉ names) : (insertArgs names false true as slots : M F _) = if ∃ a ∈ as, a.1 ≠ "" ∧ a.1 ∉ names then err else pure (over names as slots) := by
  induction as generalizing slots with
  | nil =>
    rw [if_neg (by rintro ⟨a, ha, _⟩; cases ha)]
    show pure slots = pure _
    congr 1
    unfold over
    refine List.ext_getElem? fun i => ?_
    by_cases hi : i < names.length
    · simp only [List.getElem?_map, List.getElem?_range hi, Option.map_some, named, List.filter_nil, List.map_nil, List.getLast?_nil]
      rw [List.getElem?_eq_getElem (by omega)]
      rfl
    · rw [List.getElem?_eq_none (by omega), List.getElem?_eq_none (by simp; omega)]
  | cons a as ih =>
    obtain ⟨name, c⟩ := a
    unfold insertArgs
    dsimp only
    by_cases hx : name = ""
    · subst hx
      have h1 : ((("" : String) != "") != true) = true := by decide
      rw [if_pos h1, ih slots hs]
      have h2 : (∃ a ∈ (("", c) :: as), a.1 ≠ "" ∧ a.1 ∉ names) ↔ ∃ a ∈ as, a.1 ≠ "" ∧ a.1 ∉ names := by
        simp
      have h3 : over names (("", c) :: as) slots = over names as slots := by
        unfold over
        refine List.map_congr_left fun i hi => ?_
        have hi' := List.mem_range.mp hi
        rw [named_cons]
        cases named as (names.getD i "") with
        | some d => rfl
        | none =>
          dsimp only
          rw [if_neg]
          intro e
          have hgi : names.getD i "" = names[i] := by simp [List.getD, hi']
          rw [hgi] at e
          exact he (e ▸ List.getElem_mem hi')
      rw [h3]
      by_cases h4 : ∃ a ∈ as, a.1 ≠ "" ∧ a.1 ∉ names
      · rw [if_pos h4, if_pos (h2.mpr h4)]
      · rw [if_neg h4, if_neg (fun h => h4 (h2.mp h))]
    · have h1 : (name != "") = true := by simpa using hx
      simp only [h1, bne_self_eq_false, Bool.false_eq_true, if_false, if_true, Bool.true_and]
      by_cases hm : name ∈ names
      · have hlt : names.findIdx (· == name) < names.length := List.findIdx_lt_length_of_exists ⟨name, hm, by simp⟩
        rw [if_neg (by simp only [beq_iff_eq]; omega), if_neg (by omega), ih _ (by simp [hs]), over_set names hn name c as slots hs hm]
        have h2 : (∃ a ∈ ((name, c) :: as), a.1 ≠ "" ∧ a.1 ∉ names) ↔ ∃ a ∈ as, a.1 ≠ "" ∧ a.1 ∉ names := by
          simp [hm]
        by_cases h4 : ∃ a ∈ as, a.1 ≠ "" ∧ a.1 ∉ names
        · rw [if_pos h4, if_pos (h2.mpr h4)]
        · rw [if_neg h4, if_neg (fun h => h4 (h2.mp h))]
      · have : names.findIdx (· == name) = names.length := by
          rw [List.findIdx_eq_length]
          intro x hx'
          simp only [beq_eq_false_iff_ne, ne_eq]
          rintro rfl
          exact hm hx'
        rw [if_pos (by rw [this]; simp), if_pos ⟨(name, c), by simp, hx, hm⟩]

/-- **C76**.  The arguments of a call: a parameter gets the argument with its name, otherwise the unnamed one in its position, otherwise its default, evaluated at the call; too many unnamed arguments, or a name
that is not that of a parameter, are errors.  The same for the members of a struct -/
theorem C76_arguments (rec : Cmd F → M F (ER F)) (names : List String) (hn : names.Nodup) (he : "" ∉ names) (as : List (String × Nat)) :
    (∀ (pars : List (Par F)) (body : Node F) (env : Nat), pars.map (·.1) = names → variadicName ∉ names → bindArgs rec (.fn pars body env) as =
      if names.length < (positional as).length ∨ ∃ a ∈ as, a.1 ≠ "" ∧ a.1 ∉ names then err else fillDefaults rec (pars.map (·.2.2)) ((List.range names.length).map (given names as))) ∧
    (∀ (sn : String) (members : List (Member F)), members.map (·.1) = names → bindArgs rec (.sdef sn members) as =
      if names.length < (positional as).length ∨ ∃ a ∈ as, a.1 ≠ "" ∧ a.1 ∉ names then err else fillDefaults rec (members.map (·.2)) ((List.range names.length).map (given names as))) := by
  have h0 : List.replicate names.length (none : Option Nat) = filled names.length [] := by
    unfold filled
    refine List.ext_getElem? fun i => ?_
    by_cases hi : i < names.length
    · simp [hi]
    · rw [List.getElem?_eq_none (by simp; omega), List.getElem?_eq_none (by simp; omega)]
  have h1 : over names as (filled names.length (positional as)) = (List.range names.length).map (given names as) := by
    unfold over given
    refine List.map_congr_left fun i hi => ?_
    have hi' := List.mem_range.mp hi
    rw [filled_get _ _ _ hi']
    rfl
  have key : ∀ (ds : List (Option (Node F))), (do
      let slots ← insertArgs names false false as (List.replicate names.length none)
      let slots ← insertArgs names false true as slots
      fillDefaults rec ds slots : M F (List Nat)) = if names.length < (positional as).length ∨ ∃ a ∈ as, a.1 ≠ "" ∧ a.1 ∉ names then err else fillDefaults rec ds ((List.range names.length).map (given names as)) := by
    intro ds
    rw [h0, insert_unnamed names as [] (by simp)]
    simp only [List.length_nil, Nat.zero_add, List.nil_append]
    by_cases h2 : names.length < (positional as).length
    · rw [if_pos h2, if_pos (Or.inl h2)]
      rfl
    · rw [if_neg h2]
      show (insertArgs names false true as (filled names.length (positional as)) >>= fun slots => fillDefaults rec ds slots) = _
      rw [insert_named names hn as _ (filled_length _ _) he, h1]
      by_cases h3 : ∃ a ∈ as, a.1 ≠ "" ∧ a.1 ∉ names
      · rw [if_pos h3, if_pos (Or.inr h3)]
        rfl
      · rw [if_neg h3, if_neg (by rintro (h | h); exacts [h2 h, h3 h])]
        rfl
  constructor
  · intro pars body env hp hv
    have hvar : isVariadic pars = false := by
      unfold isVariadic
      cases hl : pars.getLast? with
      | none => rfl
      | some p =>
        simp only [beq_eq_false_iff_ne, ne_eq]
        rintro h
        refine hv (h ▸ hp ▸ List.mem_map.mpr ⟨p, List.mem_of_getLast? hl, rfl⟩)
    have hlen : pars.length = names.length := by rw [← hp, List.length_map]
    rw [← key]
    unfold bindArgs
    dsimp only
    rw [hvar, hp, hlen]
    rfl
  · intro sn members hp
    have hlen : members.length = names.length := by rw [← hp, List.length_map]
    rw [← key]
    unfold bindArgs
    dsimp only
    rw [hp, hlen]

end Nissa.Nice
