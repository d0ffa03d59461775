import Mathlib.Data.Rat.Defs
import Mathlib.Data.List.Basic
import Mathlib.Logic.Function.Basic
/-!
Model of the tool tools/ave.cpp, that averages files of doubles.
-/
set_option linter.all false
namespace Nissa.Ave

abbrev Path := List Char

/-- A file: doubles, taken as rationals, and the number of bytes after the last whole one. -/
structure File where
  vals : List ℚ
  extra : ℕ
deriving DecidableEq

/-- Files as seen by who opens them, data still in the buffers of the files open for output, number of
open files (inputs and outputs are never closed, tools/ave.cpp:12-42). -/
structure St where
  disk : Path → Option File
  pend : List (Path × File)
  opened : ℕ

/-- The system: how many of `n` doubles written to a file are seen before it is closed, and
maximal number of files open. -/
structure Sys where
  vis : ℕ → ℕ
  lim : ℕ

/-- Spaces for `sscanf`. -/
def isSpace (c : Char) : Bool := c = ' ' ∨ c = '\n' ∨ c = '\t' ∨ c = '\r'

/-- The words of a line: `read_next` takes the first word and moves after it. (tools/ave.cpp:45-60; the
first place of the word in the line, looked for by `strstr`, is where it was read) -/
def toks : List Char → List Char → List Path
  | cur, [] => if cur = [] then [] else [cur]
  | cur, c :: s => if isSpace c then (if cur = [] then toks [] s else cur :: toks [] s) else toks (cur ++ [c]) s

/-- Numbers of a file: error if it cannot be opened or has not a whole number of doubles.
(tools/ave.cpp:62-78, 12-21) -/
def readIn (y : Sys) (s : St) (p : Path) : Option (List ℚ) :=
  if y.lim ≤ s.opened then none
  else match s.disk p with
    | none => none
    | some f => if f.extra = 0 then some f.vals else none

/-- Sum of the files: `acc` is the sum so far, `none` before the first; error if the size differs from
that of the first. (tools/ave.cpp:91-121, 24-27) -/
def sumAll (y : Sys) : St → List Path → Option (List ℚ) → St × Option (Option (List ℚ))
  | s, [], acc => (s, some acc)
  | s, p :: ps, acc =>
    match readIn y s p with
    | none => (s, none)
    | some v =>
      match acc with
      | none => sumAll y { s with opened := s.opened + 1 } ps (some (v.map fun x => 0 + x))
      | some a =>
        if v.length ≠ a.length then (s, none)
        else sumAll y { s with opened := s.opened + 1 } ps (some (List.zipWith (fun x z => x + z) a v))

/-- A line of the input: `false` when it stops with an error. (tools/ave.cpp:80-131; a file can always be
opened for output but for the number of open ones) -/
def average (y : Sys) (s : St) (line : List Char) : St × Bool :=
  match toks [] line with
  | [] => (s, false)
  | out :: ins =>
    match sumAll y s ins none with
    | (s', none) => (s', false)
    | (s', some none) => (s', false)
    | (s', some (some a)) =>
      let r := a.map fun x => x / (ins.length : ℚ)
      if y.lim ≤ s'.opened then (s', false)
      else
        ({ disk := Function.update s'.disk out (some ⟨r.take (y.vis r.length), 0⟩)
           pend := s'.pend ++ [(out, ⟨r, 0⟩)]
           opened := s'.opened + 1 }, true)

/-- `fgets` with room for `n` characters: up to the end of the line, or less if it is longer.
(tools/ave.cpp:146) -/
def takeLine : ℕ → List Char → List Char × List Char
  | 0, s => ([], s)
  | _ + 1, [] => ([], [])
  | n + 1, c :: s => if c = '\n' then ([c], s) else (c :: (takeLine n s).1, (takeLine n s).2)

/-- The lines of the input one by one. (tools/ave.cpp:144-151; each turn takes at least a character, so the
length of the text bounds the turns) -/
def loop (y : Sys) : ℕ → St → List Char → St × Bool
  | 0, s, _ => (s, true)
  | n + 1, s, text =>
    if text = [] then (s, true)
    else
      let l := takeLine 1023 text
      if 1 < l.1.length then
        match average y s l.1 with
        | (s', true) => loop y n s' l.2
        | (s', false) => (s', false)
      else loop y n s l.2

/-- What remains in the buffers is written when the tool ends. (Simplified: if a path was opened twice, the last
one wins.) -/
def flush (s : St) : Path → Option File := s.pend.foldl (fun d a => Function.update d a.1 (some a.2)) s.disk

/-- The tool: files at the end, and whether there was no error. (tools/ave.cpp:133-154; one file open is the
input itself, standard ones are not counted) -/
def ave (y : Sys) (disk : Path → Option File) (text : List Char) : (Path → Option File) × Bool :=
  let r := loop y text.length ⟨disk, [], 1⟩ text
  (flush r.1, r.2)
end Nissa.Ave
