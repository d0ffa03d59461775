/-
Model of the reading of input files: the scanner of words, the comments, the typed readers with tags, the lists, the nested input files and the
nissa_config file.

  /repo/src/io/input.cpp: 150-172 (open_input, close_input), 175-194 (read_next_token), 197-200 (check_tok_starts_comment,
  check_tok_ends_comment), 203-213 (read_up_to_end_of_comment), 216-242 (read_var_catcherr), 244-245 (read_var), 247-261 (read_int, read_str),
  264-271 (expect_str), 274-280 (read_str_int), 313-322 (read_list_of_var), 447-556 (read_nissa_config_file), 58-81 (file_lock)

Simplifications: the ranks are not distinguished (the master reads, every token is broadcast with its terminating 0, and each rank repeats the
same parsing); texts are lists of character codes without NUL characters; the conversions of sscanf other than "%d" and "%s" are a parameter; what
is printed on the screen is not modelled.
-/
import Verif.Io.Text
import Mathlib.Data.List.TakeWhile
set_option linter.all false

namespace Nissa.Inp
open Nissa.Text

/-- what can go wrong: a call of CRASH, a word written past the end of the array meant for it, a value which the C library leaves undefined -/
inductive Err | crash | overrun | undef
deriving DecidableEq

/-- an open input file: what is still to be read and the end-of-file indicator -/
structure Inp where
  rest : Str
  eof : Bool
deriving DecidableEq

/-- a file just opened (fopen): input.cpp 150-155 -/
def openText (s : Str) : Inp := ⟨s, false⟩

/-- fscanf("%s"): skip the white spaces, take the characters up to the next one. The end-of-file indicator is set when the scan has met the end -/
def fscanfS (f : Inp) : Option Str × Inp :=
  match f.rest.dropWhile isSpace with
  | [] => (none, ⟨[], true⟩)
  | c :: l =>
    let r := (c :: l).dropWhile (fun c => !isSpace c)
    (some ((c :: l).takeWhile (fun c => !isSpace c)), ⟨r, r.isEmpty⟩)

/-- read_next_token (input.cpp 175-194); `none` stands for the value -1 (EOF) with an empty token. The token has room for 1024 characters -/
def readNextToken (f : Inp) : Except Err (Option Str × Inp) :=
  if f.eof then .error .crash
  else match fscanfS f with
    | (none, f') => .ok (none, f')
    | (some w, f') => if w.length + 1 ≤ 1024 then .ok (some w, f') else .error .overrun

/-- what the program finds in memory it has not written: the two characters placed before a token, and the content of a string never filled -/
structure Env where
  below2 : Nat
  below1 : Nat
  junk : Str

/-- check_tok_starts_comment (input.cpp 197-198): strncasecmp with the slash and the star -/
def startsComment (w : Str) : Bool := w.take 2 == [47, 42]

/-- check_tok_ends_comment (input.cpp 199-200): the two characters from position strlen-2 on. The subtraction is done on unsigned numbers, so that
for a token of a single character the comparison starts one place before the token -/
def endsComment (env : Env) (w : Str) : Bool := ((env.below2 :: env.below1 :: w).drop w.length).take 2 == [42, 47]

theorem dropWhile_len {p : Nat → Bool} (l : Str) : (l.dropWhile p).length ≤ l.length := by
  induction l with
  | nil => simp
  | cons c l ih => rw [List.dropWhile_cons]; split <;> simp <;> omega

theorem readNextToken_lt {f f' : Inp} {w : Str} (h : readNextToken f = .ok (some w, f')) : f'.rest.length < f.rest.length := by
  unfold readNextToken at h
  split at h
  · cases h
  · unfold fscanfS at h
    split at h
    · cases h
    · rename_i w' f'' hh
      split at hh
      · cases hh
      · rename_i c l hc
        split at h
        · have hlen := dropWhile_len (p := isSpace) f.rest
          rw [hc] at hlen
          have hsp : isSpace c = false := by
            have := List.head?_dropWhile_not isSpace f.rest
            rw [hc] at this
            simpa using this
          simp only [Prod.mk.injEq, Option.some.injEq] at hh
          simp only [Except.ok.injEq, Prod.mk.injEq, Option.some.injEq] at h
          rw [← h.2, ← hh.2]
          simp only
          rw [List.dropWhile_cons, hsp]
          simp only [Bool.not_false, if_true]
          have := dropWhile_len (p := fun c => !isSpace c) l
          simp at hlen
          omega
        · cases h

/-- read_up_to_end_of_comment (input.cpp 203-213) -/
def readUpToEnd (env : Env) (f : Inp) : Except Err Inp :=
  match h : readNextToken f with
  | .error e => .error e
  | .ok (none, _) => .error .crash
  | .ok (some w, f') =>
    have := readNextToken_lt h
    if endsComment env w then .ok f' else readUpToEnd env f'
termination_by f.rest.length

theorem readUpToEnd_lt (env : Env) (n : Nat) : ∀ f f', f.rest.length ≤ n → readUpToEnd env f = .ok f' → f'.rest.length ≤ f.rest.length := by
  induction n with
  | zero =>
    intro f f' hn h
    rw [readUpToEnd] at h
    split at h
    · cases h
    · cases h
    · rename_i w f1 h1
      have := readNextToken_lt h1
      omega
  | succ n ih =>
    intro f f' hn h
    rw [readUpToEnd] at h
    split at h
    · cases h
    · cases h
    · rename_i w f1 h1
      have := readNextToken_lt h1
      simp only at h
      split at h
      · cases h; omega
      · have := ih f1 f' (by omega) h
        omega

/-- the loop of read_var_catcherr (input.cpp 216-237): the first token which is not inside a comment -/
def readTok (env : Env) (f : Inp) : Except Err (Option Str × Inp) :=
  match h : readNextToken f with
  | .error e => .error e
  | .ok (none, f') => .ok (none, f')
  | .ok (some w, f') =>
    have := readNextToken_lt h
    if startsComment w then
      if endsComment env w then readTok env f'
      else match h2 : readUpToEnd env f' with
        | .error e => .error e
        | .ok f'' =>
          have := readUpToEnd_lt env _ f' f'' (le_refl _) h2
          readTok env f''
    else .ok (some w, f')
termination_by f.rest.length

/-- outcome of sscanf with one conversion -/
inductive Scan (α : Type) | noMatch | val (a : α) | bad (e : Err)

/-- sscanf("%d"): a number outside of an `int` is undefined. What follows the digits is not looked at -/
def fmtD (w : Str) : Scan Int :=
  match scanSigned (skipSpace w) with
  | none => .noMatch
  | some z => if -2 ^ 31 ≤ z ∧ z < 2 ^ 31 then .val z else .bad .undef

/-- sscanf("%s") into an array of `size` characters: nothing limits the length -/
def fmtS (size : Nat) (w : Str) : Scan Str := if w.length + 1 ≤ size then .val w else .bad .overrun

/-- read_var_catcherr (input.cpp 216-242): the code returned (1 read, 0 not matching, -1 end of file) and what is written in the variable -/
def readVarCatcherr {α : Type} (env : Env) (fmt : Str → Scan α) (f : Inp) : Except Err ((Int × Option α) × Inp) :=
  match readTok env f with
  | .error e => .error e
  | .ok (none, f') => .ok ((-1, none), f')
  | .ok (some w, f') =>
    match fmt w with
    | .noMatch => .ok ((0, none), f')
    | .val a => .ok ((1, some a), f')
    | .bad e => .error e

/-- read_var (input.cpp 244-245) on a variable holding `old`: CRASH if the code is zero -/
def readVar {α : Type} (env : Env) (fmt : Str → Scan α) (old : α) (f : Inp) : Except Err (α × Inp) :=
  match readVarCatcherr env fmt f with
  | .error e => .error e
  | .ok ((nr, v), f') => if nr = 0 then .error .crash else .ok (v.getD old, f')

/-- read_int (input.cpp 248-249) -/
def readInt (env : Env) (old : Int) (f : Inp) := readVar env fmtD old f

/-- read_str (input.cpp 260-261) -/
def readStr (env : Env) (size : Nat) (old : Str) (f : Inp) := readVar env (fmtS size) old f

/-- tolower in the C locale -/
def lower (c : Nat) : Nat := if 65 ≤ c ∧ c ≤ 90 then c + 32 else c

/-- strcasecmp(a,b)==0 -/
def sameCase (a b : Str) : Bool := a.map lower == b.map lower

/-- expect_str (input.cpp 264-271); the string is not initialised -/
def expectStr (env : Env) (tag : Str) (f : Inp) : Except Err Inp :=
  match readStr env 1024 env.junk f with
  | .error e => .error e
  | .ok (w, f') => if sameCase tag w then .ok f' else .error .crash

/-- read_str_int (input.cpp 274-280) and, with another conversion, read_str_double, read_str_str (294-311) -/
def readStrVar {α : Type} (env : Env) (fmt : Str → Scan α) (tag : Str) (old : α) (f : Inp) : Except Err (α × Inp) :=
  match expectStr env tag f with
  | .error e => .error e
  | .ok f' => readVar env fmt old f'

/-- a program reading variables one after the other, each with its tag -/
def readPars {α : Type} (env : Env) (fmt : Str → Scan α) : List (Str × α) → Inp → Except Err (List α × Inp)
  | [], f => .ok ([], f)
  | (tag, old) :: l, f =>
    match readStrVar env fmt tag old f with
    | .error e => .error e
    | .ok (v, f') =>
      match readPars env fmt l f' with
      | .error e => .error e
      | .ok (vs, f'') => .ok (v :: vs, f'')

/-- the loop of read_list_of_var (input.cpp 317-321): the entries are in memory just allocated, with content `old` -/
def readEntries {α : Type} (env : Env) (fmt : Str → Scan α) (old : α) : Nat → Inp → Except Err (List α × Inp)
  | 0, f => .ok ([], f)
  | n + 1, f =>
    match readVar env fmt old f with
    | .error e => .error e
    | .ok (v, f') =>
      match readEntries env fmt old n f' with
      | .error e => .error e
      | .ok (vs, f'') => .ok (v :: vs, f'')

/-- read_list_of_var (input.cpp 313-322) -/
def readListOfVar {α : Type} (env : Env) (fmt : Str → Scan α) (old : α) (tag : Str) (nold : Int) (f : Inp) : Except Err (List α × Inp) :=
  match readStrVar env fmtD tag nold f with
  | .error e => .error e
  | .ok (n, f') => readEntries env fmt old n.toNat f'

/-- read `n` words, as with repeated calls of read_str with room enough -/
def readWords (env : Env) (n : Nat) (f : Inp) : Except Err (List Str × Inp) := readEntries env (fmtS 1024) env.junk n f

/-- input_global and input_global_stack (input.hpp 20-21) -/
structure Files where
  cur : Option Inp
  stack : List Inp

/-- open_input (input.cpp 150-155) -/
def openInput (s : Str) (st : Files) : Files :=
  match st.cur with
  | none => ⟨some (openText s), st.stack⟩
  | some f => ⟨some (openText s), st.stack ++ [f]⟩

/-- close_input (input.cpp 158-172) -/
def closeInput (st : Files) : Except Err Files :=
  if st.stack.length = 0 ∧ st.cur.isNone then .error .crash
  else match st.stack.getLast? with
    | some f => .ok ⟨some f, st.stack.dropLast⟩
    | none => .ok ⟨none, []⟩

/-- text to codes -/
def txt (s : String) : Str := s.toList.map Char.toNat

/-- the names known to read_nissa_config_file (input.cpp 451-468) when no external library is used -/
def configTags : List Str := ["ignore_unknown_parameters", "prepend_time", "verbosity_lv", "use_128_bit_precision", "check_inversion_residue",
  "inversion_residue_heavy_qualify_odg", "inversion_residue_threshold_odg", "use_eo_geom", "use_async_communications", "warn_if_not_disallocated",
  "set_t_nranks", "set_x_nranks", "set_y_nranks", "set_z_nranks", "ignore_ILDG_magic_number", "fast_read_write_vectors",
  "perform_benchmark"].map txt

/-- values of the parameters -/
abbrev Pars := Str → Int

/-- assign a parameter -/
def setPar (p : Pars) (n : Str) (v : Int) : Pars := fun m => if m = n then v else p m

theorem readTok_lt (env : Env) (n : Nat) : ∀ f f' w, f.rest.length ≤ n → readTok env f = .ok (some w, f') → f'.rest.length < f.rest.length := by
  induction n with
  | zero =>
    intro f f' w hn h
    rw [readTok] at h
    split at h
    · cases h
    · cases h
    · rename_i w1 f1 h1
      have := readNextToken_lt h1
      omega
  | succ n ih =>
    intro f f' w hn h
    rw [readTok] at h
    split at h
    · cases h
    · cases h
    · rename_i w1 f1 h1
      have h1' := readNextToken_lt h1
      simp only at h
      split at h
      · split at h
        · have := ih f1 f' w (by omega) h
          omega
        · split at h
          · cases h
          · rename_i f2 h2
            have h2' := readUpToEnd_lt env _ f1 f2 (le_refl _) h2
            have := ih f2 f' w (by omega) h
            omega
      · cases h; omega

theorem readVarCatcherr_lt {α : Type} {env : Env} {fmt : Str → Scan α} {f f' : Inp} {nr : Int} {v : Option α} (hnr : nr ≠ -1)
    (h : readVarCatcherr env fmt f = .ok ((nr, v), f')) : f'.rest.length < f.rest.length := by
  unfold readVarCatcherr at h
  split at h
  · cases h
  · cases h; exact absurd rfl hnr
  · rename_i w f1 h1
    have := readTok_lt env _ f f1 w (le_refl _) h1
    split at h <;> cases h <;> exact this

theorem readTok_le (env : Env) (n : Nat) : ∀ f f' w, f.rest.length ≤ n → readTok env f = .ok (w, f') → f'.rest.length ≤ f.rest.length := by
  intro f f' w
  cases w with
  | some w => intro h h'; have := readTok_lt env n f f' w h h'; omega
  | none =>
    induction n generalizing f with
    | zero =>
      intro hn h
      rw [readTok] at h
      split at h
      · cases h
      · rename_i f1 h1
        cases h
        unfold readNextToken at h1
        split at h1
        · cases h1
        · split at h1
          · rename_i f2 h2
            cases h1
            unfold fscanfS at h2
            split at h2
            · cases h2; simp
            · cases h2
          · split at h1 <;> cases h1
      · rename_i w1 f1 h1
        have := readNextToken_lt h1
        omega
    | succ n ih =>
      intro hn h
      rw [readTok] at h
      split at h
      · cases h
      · rename_i f1 h1
        cases h
        unfold readNextToken at h1
        split at h1
        · cases h1
        · split at h1
          · rename_i f2 h2
            cases h1
            unfold fscanfS at h2
            split at h2
            · cases h2; simp
            · cases h2
          · split at h1 <;> cases h1
      · rename_i w1 f1 h1
        have h1' := readNextToken_lt h1
        simp only at h
        split at h
        · split at h
          · have := ih f1 (by omega) h
            omega
          · split at h
            · cases h
            · rename_i f2 h2
              have h2' := readUpToEnd_lt env _ f1 f2 (le_refl _) h2
              have := ih f2 (by omega) h
              omega
        · cases h

theorem readVarCatcherr_le {α : Type} {env : Env} {fmt : Str → Scan α} {f f' : Inp} {nr : Int} {v : Option α}
    (h : readVarCatcherr env fmt f = .ok ((nr, v), f')) : f'.rest.length ≤ f.rest.length := by
  unfold readVarCatcherr at h
  split at h
  · cases h
  · rename_i f1 h1
    have := readTok_le env _ f f1 none (le_refl _) h1
    cases h; exact this
  · rename_i w f1 h1
    have := readTok_le env _ f f1 _ (le_refl _) h1
    split at h <;> cases h <;> exact this

theorem readVar_le {α : Type} {env : Env} {fmt : Str → Scan α} {old v : α} {f f' : Inp}
    (h : readVar env fmt old f = .ok (v, f')) : f'.rest.length ≤ f.rest.length := by
  unfold readVar at h
  split at h
  · cases h
  · rename_i nr v1 f1 h1
    have := readVarCatcherr_le h1
    split at h <;> cases h; exact this

/-- the loop of read_nissa_config_file (input.cpp 490-543) on a file: `tags` are the known names, `ign` the name of the parameter deciding whether
unknown names are skipped. The name and the skipped value have room for 100 characters -/
def readConfig (env : Env) (tags : List Str) (ign : Str) (p : Pars) (f : Inp) : Except Err Pars :=
  match h : readVarCatcherr env (fmtS 100) f with
  | .error e => .error e
  | .ok ((nr, v), f') =>
    if hnr : nr = 1 then
      have := readVarCatcherr_lt (by omega) h
      match v with
      | none => .ok p
      | some tag =>
        if tag ∈ tags then
          match h2 : readVar env fmtD (p tag) f' with
          | .error e => .error e
          | .ok (x, f'') =>
            have := readVar_le h2
            readConfig env tags ign (setPar p tag x) f''
        else if p ign ≠ 0 then
          match h3 : readVarCatcherr env (fmtS 100) f' with
          | .error e => .error e
          | .ok ((nr', v'), f'') =>
            have := readVarCatcherr_le h3
            readConfig env tags ign p f''
        else .error .crash
    else .ok p
termination_by f.rest.length

/-- file_lock on the master (input.cpp 58-81): `status` is what lockf returns (0 when the lock has been taken) and `fd` the descriptor opened -/
def fileLock (fd status : Int) : Int := if status = 0 then 0 else fd

end Nissa.Inp
