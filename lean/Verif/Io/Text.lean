/-
Model of the pieces of the C library used to write and read numbers as text: printf("%d"), printf("%#010x"), sscanf("%s"), sscanf("%d"),
sscanf("%x"), strstr. Texts are lists of character codes, without the terminating 0.
-/
import Mathlib.Data.List.Basic
import Mathlib.Tactic.Ring
set_option linter.all false

namespace Nissa.Text

abbrev Str := List Nat

/-- digit to lower case character -/
def digitCode (d : Nat) : Nat := if d < 10 then 48 + d else 87 + d

/-- character to digit, both cases -/
def codeDigit (c : Nat) : Option Nat :=
  if 48 ≤ c ∧ c ≤ 57 then some (c - 48) else if 97 ≤ c ∧ c ≤ 102 then some (c - 87) else if 65 ≤ c ∧ c ≤ 70 then some (c - 55) else none

/-- white spaces of isspace -/
def isSpace (c : Nat) : Bool := c == 32 || (9 ≤ c && c ≤ 13)

/-- positional notation in base `b+2`, without leading zeros -/
def print (b n : Nat) : Str :=
  if n < b + 2 then [digitCode n] else print b (n / (b + 2)) ++ [digitCode (n % (b + 2))]
termination_by n
decreasing_by exact Nat.div_lt_self (by omega) (by omega)

/-- printf("%d") -/
def printInt (z : Int) : Str := if z < 0 then 45 :: print 8 z.natAbs else print 8 z.natAbs

/-- the digits at the beginning of a text and what follows -/
def scanDigits (b : Nat) : Str → List Nat × Str
  | [] => ([], [])
  | c :: l => match codeDigit c with
    | none => ([], c :: l)
    | some d => if d < b then let r := scanDigits b l; (d :: r.1, r.2) else ([], c :: l)

/-- value of a list of digits -/
def value (b : Nat) (l : List Nat) : Nat := l.foldl (fun a d => a * b + d) 0

/-- skip white spaces -/
def skipSpace (s : Str) : Str := s.dropWhile isSpace

/-- digits to number: at least one is needed -/
def scanNat (b : Nat) (s : Str) : Option Nat :=
  match (scanDigits b s).1 with
  | [] => none
  | l => some (value b l)

/-- number with an optional sign -/
def scanSigned (s : Str) : Option Int :=
  match s with
  | [] => none
  | c :: t => if c = 45 then (scanNat 10 t).map (fun n : Nat => -(n : Int)) else if c = 43 then (scanNat 10 t).map (fun n : Nat => (n : Int))
    else (scanNat 10 (c :: t)).map (fun n : Nat => (n : Int))

/-- sscanf("%d"): a result outside of an `int` is undefined -/
def scanInt (s : Str) : Option Int :=
  (scanSigned (skipSpace s)).bind (fun z => if -2 ^ 31 ≤ z ∧ z < 2 ^ 31 then some z else none)

/-- skip an optional 0x -/
def skip0x (s : Str) : Str := if [48, 120].isPrefixOf s then s.drop 2 else s

/-- sscanf("%x") with an optional 0x (no sign is considered); a result outside of 32 bits is undefined -/
def scanHex (s : Str) : Option Nat :=
  (scanNat 16 (skip0x (skipSpace s))).bind (fun n => if n < 2 ^ 32 then some n else none)

/-- sscanf("%s") -/
def scanWord (s : Str) : Option Str :=
  match (skipSpace s).takeWhile (fun c => !isSpace c) with
  | [] => none
  | l => some l

/-- left padding with zeros to a given width -/
def padZero (w : Nat) (s : Str) : Str := List.replicate (w - s.length) 48 ++ s

/-- printf("%#010x"): the prefix counts in the width, and it is not written for a zero -/
def printHex010 (n : Nat) : Str := if n = 0 then padZero 10 (print 14 n) else 48 :: 120 :: padZero 8 (print 14 n)

/-- strstr: what begins at the first occurrence of the pattern -/
def strstr (pat : Str) : Str → Option Str
  | [] => if pat = [] then some [] else none
  | c :: l => if pat.isPrefixOf (c :: l) then some (c :: l) else strstr pat l

/-! ### Lemmas -/

theorem codeDigit_digitCode {d : Nat} (h : d < 16) : codeDigit (digitCode d) = some d := by
  unfold codeDigit digitCode
  split
  · rw [if_pos (by omega)]; congr 1; omega
  · rw [if_neg (by omega), if_pos (by omega)]; congr 1; omega

theorem digitCode_range {d : Nat} (h : d < 16) : (48 ≤ digitCode d ∧ digitCode d ≤ 57) ∨ (97 ≤ digitCode d ∧ digitCode d ≤ 102) := by
  unfold digitCode
  split <;> omega

/-- digits of a number, most significant first -/
def digits (b n : Nat) : List Nat := if n < b + 2 then [n] else digits b (n / (b + 2)) ++ [n % (b + 2)]
termination_by n
decreasing_by exact Nat.div_lt_self (by omega) (by omega)

theorem print_eq (b n : Nat) : print b n = (digits b n).map digitCode := by
  induction n using Nat.strong_induction_on with
  | _ n ih =>
    rw [print, digits]
    split
    · rfl
    · rename_i h
      rw [ih _ (Nat.div_lt_self (by omega) (by omega))]
      simp

theorem digits_lt (b n : Nat) : ∀ d ∈ digits b n, d < b + 2 := by
  induction n using Nat.strong_induction_on with
  | _ n ih =>
    intro d hd
    rw [digits] at hd
    split at hd
    · simp at hd; omega
    · rename_i h
      rcases List.mem_append.1 hd with h' | h'
      · exact ih _ (Nat.div_lt_self (by omega) (by omega)) d h'
      · rw [List.mem_singleton] at h'; rw [h']; exact Nat.mod_lt _ (by omega)

theorem digits_ne_nil (b n : Nat) : digits b n ≠ [] := by
  rw [digits]; split <;> simp

theorem value_digits (b n : Nat) : value (b + 2) (digits b n) = n := by
  induction n using Nat.strong_induction_on with
  | _ n ih =>
    rw [digits]
    split
    · simp [value]
    · rename_i h
      have := ih _ (Nat.div_lt_self (show 0 < n by omega) (show 1 < b + 2 by omega))
      unfold value at this ⊢
      rw [List.foldl_append, this]
      simp only [List.foldl_cons, List.foldl_nil]
      rw [Nat.mul_comm]; exact Nat.div_add_mod n (b + 2)

theorem value_zeros (b k : Nat) (l : List Nat) : value b (List.replicate k 0 ++ l) = value b l := by
  unfold value
  rw [List.foldl_append]
  congr 1
  induction k with
  | zero => rfl
  | succ k ih => rw [List.replicate_succ, List.foldl_cons]; simpa using ih

theorem digits_length (b n k : Nat) (hk : 0 < k) (h : n < (b + 2) ^ k) : (digits b n).length ≤ k := by
  induction k generalizing n with
  | zero => omega
  | succ k ih =>
    rw [digits]
    split
    · simp
    · rename_i hn
      have hk : 0 < k := by
        rcases Nat.eq_zero_or_pos k with h' | h'
        · subst h'; simp at h; omega
        · exact h'
      have := ih (n / (b + 2)) hk (by rw [Nat.div_lt_iff_lt_mul (by omega)]; rw [← Nat.pow_succ]; exact h)
      simp; omega

/-- reading digits stops at the first character which is not one -/
theorem scanDigits_map {b : Nat} (hb : b ≤ 16) (l : List Nat) (h : ∀ d ∈ l, d < b) (rest : Str)
    (hr : ∀ c t, rest = c :: t → codeDigit c = none ∨ ∃ d, codeDigit c = some d ∧ b ≤ d) : scanDigits b (l.map digitCode ++ rest) = (l, rest) := by
  induction l with
  | nil =>
    cases rest with
    | nil => rfl
    | cons c t =>
      rcases hr c t rfl with h' | ⟨d, h', hd⟩
      · simp [scanDigits, h']
      · simp [scanDigits, h']; omega
  | cons d l ih =>
    have hd := h d (by simp)
    rw [List.map_cons, List.cons_append, scanDigits, codeDigit_digitCode (by omega)]
    simp only [hd, if_true]
    rw [ih (fun e he => h e (by simp [he]))]

theorem scanNat_map {b : Nat} (hb : b ≤ 16) (l : List Nat) (hl : l ≠ []) (h : ∀ d ∈ l, d < b) (rest : Str)
    (hr : ∀ c t, rest = c :: t → codeDigit c = none ∨ ∃ d, codeDigit c = some d ∧ b ≤ d) : scanNat b (l.map digitCode ++ rest) = some (value b l) := by
  unfold scanNat
  rw [scanDigits_map hb l h rest hr]
  cases l with
  | nil => exact absurd rfl hl
  | cons d l => rfl

/-- %d round trip -/
theorem scanInt_printInt (z : Int) (h1 : -2 ^ 31 ≤ z) (h2 : z < 2 ^ 31) : scanInt (printInt z) = some z := by
  have hp : ∀ n, scanNat 10 (print 8 n) = some n := by
    intro n
    have := scanNat_map (b := 10) (by omega) (digits 8 n) (digits_ne_nil 8 n) (digits_lt 8 n) [] (fun c t h => by cases h)
    rw [List.append_nil] at this
    rw [print_eq, this, value_digits]
  have hh : ∀ n, ∃ c t, print 8 n = c :: t ∧ 48 ≤ c ∧ c ≤ 57 := by
    intro n
    rw [print_eq]
    cases e : digits 8 n with
    | nil => exact absurd e (digits_ne_nil 8 n)
    | cons d l =>
      have hd := digits_lt 8 n d (by rw [e]; simp)
      refine ⟨digitCode d, l.map digitCode, rfl, ?_⟩
      unfold digitCode; rw [if_pos (by omega)]; omega
  unfold scanInt printInt
  by_cases hz : z < 0
  · rw [if_pos hz, show skipSpace (45 :: print 8 z.natAbs) = 45 :: print 8 z.natAbs by rw [skipSpace, List.dropWhile_cons]; rfl]
    simp only [scanSigned, if_true, hp, Option.map_some, Option.bind_some]
    rw [show -((z.natAbs : Nat) : Int) = z by omega, if_pos ⟨h1, h2⟩]
  · rw [if_neg hz]
    obtain ⟨c, t, e, hc1, hc2⟩ := hh z.natAbs
    have hs : skipSpace (print 8 z.natAbs) = c :: t := by
      rw [e, skipSpace, List.dropWhile_cons, if_neg]
      simp [isSpace]; omega
    rw [hs, scanSigned, if_neg (by omega), if_neg (by omega), ← e, hp, Option.map_some, Option.bind_some,
      show ((z.natAbs : Nat) : Int) = z by omega, if_pos ⟨h1, h2⟩]

theorem printInt_length (z : Int) (h1 : -2 ^ 31 ≤ z) (h2 : z < 2 ^ 31) : 1 ≤ (printInt z).length ∧ (printInt z).length ≤ 11 := by
  have h : ∀ n, n < 10 ^ 10 → 1 ≤ (print 8 n).length ∧ (print 8 n).length ≤ 10 := by
    intro n hn
    rw [print_eq, List.length_map]
    exact ⟨List.length_pos_of_ne_nil (digits_ne_nil 8 n), digits_length 8 n 10 (by omega) hn⟩
  unfold printInt
  have := h z.natAbs (by omega)
  split
  · simp; omega
  · omega

theorem printInt_chars (z : Int) : ∀ c ∈ printInt z, isSpace c = false ∧ c ≠ 0 := by
  have h : ∀ n, ∀ c ∈ print 8 n, isSpace c = false ∧ c ≠ 0 := by
    intro n c hc
    rw [print_eq, List.mem_map] at hc
    obtain ⟨d, hd, rfl⟩ := hc
    have := digitCode_range (show d < 16 by have := digits_lt 8 n d hd; omega)
    refine ⟨?_, by omega⟩
    simp [isSpace]; omega
  intro c hc
  unfold printInt at hc
  split at hc
  · rcases List.mem_cons.1 hc with h' | h'
    · subst h'; decide
    · exact h _ c h'
  · exact h _ c hc

/-- %s stops at the first space -/
theorem scanWord_append (w rest : Str) (hw : w ≠ []) (h : ∀ c ∈ w, isSpace c = false) (hr : ∀ c t, rest = c :: t → isSpace c = true) :
    scanWord (w ++ rest) = some w := by
  unfold scanWord
  have h1 : skipSpace (w ++ rest) = w ++ rest := by
    cases w with
    | nil => exact absurd rfl hw
    | cons c t => rw [skipSpace, List.cons_append, List.dropWhile_cons, if_neg]; simp [h c (by simp)]
  have h2 : (w ++ rest).takeWhile (fun c => !isSpace c) = w := by
    rw [List.takeWhile_append_of_pos (fun c hc => by simp [h c hc])]
    cases rest with
    | nil => simp
    | cons c t => rw [List.takeWhile_cons, if_neg]; · simp
                  simp [hr c t rfl]
  rw [h1, h2]
  cases w with
  | nil => exact absurd rfl hw
  | cons c t => rfl

/-- %#010x round trip, whatever follows provided that it does not look like a further digit -/
theorem scanHex_printHex (n : Nat) (hn : n < 2 ^ 32) (rest : Str) (hr : ∀ c t, rest = c :: t → codeDigit c = none) :
    scanHex (printHex010 n ++ rest) = some n := by
  have key : ∀ k, scanNat 16 (List.replicate k 48 ++ print 14 n ++ rest) = some n := by
    intro k
    have h1 : List.replicate k 48 ++ print 14 n = (List.replicate k 0 ++ digits 14 n).map digitCode := by
      rw [print_eq, List.map_append, List.map_replicate]; rfl
    rw [h1, scanNat_map (b := 16) (by omega) _ (by simp [digits_ne_nil]) _ rest (fun c t h => Or.inl (hr c t h)), value_zeros, value_digits]
    intro d hd
    rcases List.mem_append.1 hd with h | h
    · rw [(List.mem_replicate.1 h).2]; omega
    · exact digits_lt 14 n d h
  unfold scanHex printHex010
  by_cases h0 : n = 0
  · subst h0
    rw [if_pos rfl]
    have hp : print 14 0 = [48] := by rw [print]; rfl
    have := key 9
    rw [hp] at this
    rw [hp, show padZero 10 [48] = List.replicate 9 48 ++ [48] from rfl]
    rw [show skipSpace (List.replicate 9 48 ++ [48] ++ rest) = List.replicate 9 48 ++ [48] ++ rest from rfl,
      show skip0x (List.replicate 9 48 ++ [48] ++ rest) = List.replicate 9 48 ++ [48] ++ rest from rfl, this]
    rfl
  · rw [if_neg h0]
    rw [show skipSpace (48 :: 120 :: padZero 8 (print 14 n) ++ rest) = 48 :: 120 :: (padZero 8 (print 14 n) ++ rest) from rfl,
      show skip0x (48 :: 120 :: (padZero 8 (print 14 n) ++ rest)) = padZero 8 (print 14 n) ++ rest from rfl, padZero, key, Option.bind_some, if_pos hn]

theorem strstr_skip (pat pre s : Str) (h : ∀ k, k < pre.length → pat.isPrefixOf ((pre ++ s).drop k) = false) : strstr pat (pre ++ s) = strstr pat s := by
  induction pre with
  | nil => rfl
  | cons c l ih =>
    have h0 := h 0 (by simp)
    rw [List.drop_zero] at h0
    rw [List.cons_append, strstr]
    rw [List.cons_append] at h0
    rw [h0]
    simp only [Bool.false_eq_true, if_false]
    exact ih (fun k hk => by have := h (k + 1) (by simp; omega); simpa using this)

theorem strstr_here (pat s : Str) (hp : pat ≠ []) : strstr pat (pat ++ s) = some (pat ++ s) := by
  cases pat with
  | nil => exact absurd rfl hp
  | cons c l =>
    rw [List.cons_append, strstr, if_pos]
    rw [List.isPrefixOf_iff_prefix, ← List.cons_append]
    exact List.prefix_append _ _

end Nissa.Text
