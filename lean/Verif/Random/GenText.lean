/-
C18. Model of the conversion of a random generator to and from text, /repo/src/base/random.cpp:66-97.
-/
import Verif.Random.Ran2
import Verif.Random.PropsRan2
import Verif.Io.Text
import Mathlib.Data.List.OfFn
import Mathlib.Data.List.GetD
set_option linter.all false

namespace Nissa.Ran2
open Nissa.Text

/-- the generator seen as the 35 integers `(int*)gen` -/
def toInts (g : Gen) : List Int := g.idum :: g.idum2 :: (List.ofFn g.iv ++ [g.iy])

/-- and back -/
def ofInts (l : List Int) : Gen := ⟨l.getD 0 0, l.getD 1 0, fun j => l.getD (j.val + 2) 0, l.getD 34 0⟩

/-- convert_rnd_gen_to_text, random.cpp:66-82, on a buffer of `size` characters. `temp` never gets more than 12 characters. `none`: write
outside of the buffer (strncat limits the characters copied, not the total length) or CRASH -/
def appendAll (size : Nat) : List Int → Str → Option Str
  | [], text => if text.length = 1024 then none else some text
  | z :: l, text =>
    let temp := (32 :: printInt z).take 19
    let text' := text ++ temp.take size
    if text'.length + 1 ≤ size then appendAll size l text' else none

def toText (g : Gen) (size : Nat) : Option Str :=
  match toInts g with
  | [] => none
  | z :: l => appendAll size l ((printInt z).take (size - 1))

/-- convert_text_to_rnd_gen, random.cpp:85-97: `n` integers; `none` for the CRASHes and for a word exceeding `temp` -/
def readInts : Nat → Str → Option (List Int)
  | 0, _ => some []
  | n + 1, text => do
    let temp ← scanWord text
    let z ← if temp.length < 20 then scanInt temp else none
    let l ← readInts n (text.drop (1 + temp.length))
    some (z :: l)

def fromText (text : Str) : Option Gen := (readInts 35 text).map ofInts

/-- the text that should be written: the numbers separated by a space -/
def joinInts : List Int → Str
  | [] => []
  | [z] => printInt z
  | z :: w :: l => printInt z ++ 32 :: joinInts (w :: l)

/-! ### Proofs -/

theorem ofInts_toInts (g : Gen) : ofInts (toInts g) = g := by
  have hl : (List.ofFn g.iv).length = 32 := List.length_ofFn
  unfold ofInts toInts
  rcases g with ⟨a, b, iv, y⟩
  simp only [Gen.mk.injEq]
  refine ⟨rfl, rfl, ?_, ?_⟩
  · funext j
    show (List.ofFn iv ++ [y]).getD j.val 0 = iv j
    rw [List.getD_append _ _ _ _ (by rw [List.length_ofFn]; exact j.isLt), List.getD_eq_getElem _ _ (by rw [List.length_ofFn]; exact j.isLt), List.getElem_ofFn]
  · show (List.ofFn iv ++ [y]).getD 32 0 = y
    rw [List.getD_append_right _ _ _ _ (by rw [List.length_ofFn])]
    simp

theorem appendAll_eq (size : Nat) (l : List Int) (hl : ∀ z ∈ l, -2 ^ 31 ≤ z ∧ z < 2 ^ 31) (text : Str)
    (hs : text.length + 12 * l.length + 1 ≤ size) (h1024 : text.length + 12 * l.length < 1024) :
    appendAll size l text = some (text ++ (l.map (fun z => 32 :: printInt z)).flatten) := by
  induction l generalizing text with
  | nil =>
    simp only [appendAll, List.map_nil, List.flatten_nil, List.append_nil]
    rw [if_neg (by simp at h1024; omega)]
  | cons z l ih =>
    have hz := hl z (by simp)
    have hlen := printInt_length z hz.1 hz.2
    rw [List.length_cons] at hs h1024
    simp only [appendAll]
    have e1 : (32 :: printInt z).take 19 = 32 :: printInt z := List.take_of_length_le (by simp; omega)
    have e2 : (32 :: printInt z).take size = 32 :: printInt z := List.take_of_length_le (by simp; omega)
    rw [e1, e2, if_pos (by simp; omega), ih (fun w hw => hl w (by simp [hw])) _ (by simp; omega) (by simp; omega)]
    simp

theorem join_eq (z : Int) (l : List Int) : joinInts (z :: l) = printInt z ++ (l.map (fun z => 32 :: printInt z)).flatten := by
  induction l generalizing z with
  | nil => simp [joinInts]
  | cons w l ih => rw [joinInts, ih]; simp

theorem readInts_join (l : List Int) (hl : ∀ z ∈ l, -2 ^ 31 ≤ z ∧ z < 2 ^ 31) : readInts l.length (joinInts l) = some l := by
  induction l with
  | nil => rfl
  | cons z l ih =>
    have hz := hl z (by simp)
    have hlen := printInt_length z hz.1 hz.2
    rw [List.length_cons, readInts, join_eq]
    have hw : scanWord (printInt z ++ (l.map (fun z => 32 :: printInt z)).flatten) = some (printInt z) := by
      refine scanWord_append _ _ (fun h => ?_) (fun c hc => (printInt_chars z c hc).1) (fun c t h => ?_)
      · rw [h] at hlen; simp at hlen
      · cases l with
        | nil => simp at h
        | cons w l => simp at h; rw [← h.1]; rfl
    simp only [hw, Option.bind_eq_bind, Option.bind_some]
    rw [if_pos (by omega), scanInt_printInt z hz.1 hz.2, Option.bind_some]
    have hd : (printInt z ++ (l.map (fun z => 32 :: printInt z)).flatten).drop (1 + (printInt z).length) = joinInts l := by
      rw [Nat.add_comm, ← List.drop_drop, List.drop_left]
      cases l with
      | nil => rfl
      | cons w l => rw [join_eq]; simp
    rw [hd, ih (fun w hw => hl w (by simp [hw])), Option.bind_some]

/-- C18: for any content of the generator, a buffer of at least 420 characters (the library uses 1024) holds its text, the text is the list of the
integers separated by a space, and converting it back gives the same generator (hence the same future numbers) -/
theorem C18_text_round_trip (g : Gen) (h : ∀ z ∈ toInts g, -2 ^ 31 ≤ z ∧ z < 2 ^ 31) (size : Nat) (hs : 420 ≤ size) :
    ∃ t, toText g size = some t ∧ t = joinInts (toInts g) ∧ fromText t = some g := by
  have hlen : (toInts g).length = 35 := by simp [toInts]
  have e0 : toInts g = g.idum :: (g.idum2 :: (List.ofFn g.iv ++ [g.iy])) := rfl
  have hz := h g.idum (by rw [e0]; simp)
  have hl0 := printInt_length g.idum hz.1 hz.2
  refine ⟨joinInts (toInts g), ?_, rfl, ?_⟩
  · unfold toText
    rw [e0]
    simp only
    rw [List.take_of_length_le (by omega), appendAll_eq size _ (fun z hz' => h z (by rw [e0]; exact List.mem_cons_of_mem _ hz')) _
      (by simp; omega) (by simp; omega), join_eq]
  · unfold fromText
    have := readInts_join (toInts g) h
    rw [hlen] at this
    rw [this, Option.map_some, ofInts_toInts]

theorem steps_congr {g g' : Gen} (h : g = g') (n : Nat) : steps n g = steps n g' := by rw [h]

/-- C18: started from any seed and after any number of draws, saving and restoring the generator gives the same following draws -/
theorem C18_saved_generator_resumes (seed : Int) (h1 : -2 ^ 31 ≤ seed) (h2 : seed < 2 ^ 31 - 1) (mem : Fin 32 → Int) (n m : Nat) :
    ∃ g0 g t g', start seed mem = some g0 ∧ steps n g0 = some g ∧ toText g 1024 = some t ∧ fromText t = some g' ∧ steps m g' = steps m g ∧ (steps m g').isSome := by
  obtain ⟨g0, g, e0, e1, hv, -⟩ := C17_any_number_of_draws seed h1 h2 mem n
  obtain ⟨t, e2, -, e3⟩ := C18_text_round_trip g (by
    have c1 : im1 = 2147483563 := rfl
    have c2 : imm1 = 2147483562 := rfl
    intro z hz
    unfold toInts at hz
    have a1 := hv.idum
    have a2 := hv.idum2
    have a4 := hv.iy
    rw [c1] at a1; rw [c2] at a4
    simp only [List.mem_cons, List.mem_append, List.mem_ofFn, List.not_mem_nil, or_false] at hz
    rcases hz with h | h | ⟨j, h⟩ | h
    · omega
    · omega
    · have a3 := hv.iv j
      rw [c1] at a3
      omega
    · omega) 1024 (by omega)
  refine ⟨g0, g, t, g, e0, e1, e2, e3, rfl, ?_⟩
  obtain ⟨g0', g', a, b, -⟩ := C17_any_number_of_draws seed h1 h2 mem (n + m)
  rw [e0] at a; cases a
  have hadd : ∀ n (x : Gen), steps (n + m) x = (steps n x).bind (steps m) := by
    intro n
    induction n with
    | zero => intro x; simp [steps]
    | succ n ih =>
      intro x
      rw [Nat.succ_add]
      simp only [steps, Option.bind_eq_bind]
      rw [Option.bind_assoc]
      congr 1
      funext y
      exact ih y
  rw [hadd, e1, Option.bind_some] at b
  rw [b]; rfl

/-- with a smaller buffer the text is not truncated: characters are written beyond its end -/
theorem C18_small_buffer_violated : toText ⟨-2147483648, -2147483648, fun _ => -2147483648, -2147483648⟩ 419 = none := by decide +kernel

example : ∀ z ∈ toInts ⟨1, -2, fun j => j.val, 2147483647⟩, -2 ^ 31 ≤ z ∧ z < 2 ^ 31 := by decide

end Nissa.Ran2
