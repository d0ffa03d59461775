/-
C71, second part: numbers, lists, the nissa_config file, nested files, and the cases in which the reading goes wrong.
-/
import Verif.Io.PropsInput
set_option linter.all false

namespace Nissa.Inp
open Nissa.Text

/-! ### Numbers -/

theorem scanSigned_print (z : Int) (rest : Str) (hr : ∀ c t, rest = c :: t → codeDigit c = none ∨ ∃ d, codeDigit c = some d ∧ 10 ≤ d) :
    scanSigned (printInt z ++ rest) = some z := by
  have hp : ∀ n, scanNat 10 (print 8 n ++ rest) = some n := by
    intro n
    have := scanNat_map (b := 10) (by omega) (digits 8 n) (digits_ne_nil 8 n) (digits_lt 8 n) rest hr
    rw [print_eq, this, value_digits]
  have hne : ∀ n, ∃ c t, print 8 n ++ rest = c :: t ∧ c ≠ 45 ∧ c ≠ 43 := by
    intro n
    rw [print_eq]
    cases hd : digits 8 n with
    | nil => exact absurd hd (digits_ne_nil 8 n)
    | cons d l =>
      have hlt := digits_lt 8 n d (by rw [hd]; simp)
      have := digitCode_range (show d < 16 by omega)
      exact ⟨digitCode d, l.map digitCode ++ rest, rfl, by omega, by omega⟩
  unfold printInt
  split
  · rename_i hz
    show scanSigned (45 :: (print 8 z.natAbs ++ rest)) = _
    unfold scanSigned
    simp only
    rw [if_pos trivial, hp]
    simp only [Option.map_some]
    congr 1; omega
  · rename_i hz
    obtain ⟨c, t, h1, h2, h3⟩ := hne z.natAbs
    have := hp z.natAbs
    rw [h1] at this ⊢
    unfold scanSigned
    simp only
    rw [if_neg h2, if_neg h3, this]
    simp only [Option.map_some]
    congr 1; omega

theorem skipSpace_print (z : Int) (rest : Str) : skipSpace (printInt z ++ rest) = printInt z ++ rest := by
  have hc := printInt_chars z
  cases hp : printInt z with
  | nil =>
    exfalso
    unfold printInt at hp
    split at hp
    · cases hp
    · rw [print_eq] at hp
      exact digits_ne_nil 8 z.natAbs (List.map_eq_nil_iff.1 hp)
  | cons c t =>
    rw [hp] at hc
    have := (hc c (by simp)).1
    unfold skipSpace
    rw [List.cons_append, List.dropWhile_cons, this]
    rfl

/-- **C71 (integers)**: an integer written in decimal is read back -/
theorem C71_int (z : Int) (h1 : -2 ^ 31 ≤ z) (h2 : z < 2 ^ 31) : fmtD (printInt z) = .val z := by
  unfold fmtD
  have := skipSpace_print z []
  rw [List.append_nil] at this
  rw [this]
  have h := scanSigned_print z [] (fun c t h => by cases h)
  rw [List.append_nil] at h
  rw [h]
  simp only
  rw [if_pos ⟨h1, h2⟩]

/-- **C71 (integers, violated)**: what follows the digits is not looked at: a word as 0.5 or 1e6 given for an integer parameter is accepted, and read
as 0 or 1 -/
theorem C71_violated_int_tail (z : Int) (h1 : -2 ^ 31 ≤ z) (h2 : z < 2 ^ 31) (c : Nat) (t : Str) (hc : c < 48 ∨ 57 < c) :
    fmtD (printInt z ++ c :: t) = .val z := by
  unfold fmtD
  rw [skipSpace_print, scanSigned_print z (c :: t) (fun c' t' h => ?_)]
  · simp only
    rw [if_pos ⟨h1, h2⟩]
  · injection h with h3 h4
    subst h3
    unfold codeDigit
    rw [if_neg (by omega)]
    split
    · right; exact ⟨_, rfl, by omega⟩
    · split
      · right; exact ⟨_, rfl, by omega⟩
      · left; rfl

example : fmtD (txt "0.5") = .val 0 := by
  have := C71_violated_int_tail 0 (by decide) (by decide) 46 [53] (by decide)
  have e : printInt 0 ++ [46, 53] = txt "0.5" := by decide +kernel
  rw [e] at this; exact this
example : fmtD (txt "1e6") = .val 1 := by
  have := C71_violated_int_tail 1 (by decide) (by decide) 101 [54] (by decide)
  have e : printInt 1 ++ [101, 54] = txt "1e6" := by decide +kernel
  rw [e] at this; exact this

/-- **C71 (tags and integers)**: a file containing, in order, the tags of a program each followed by an integer, in any layout and with any comments,
gives those integers -/
theorem C71_read_ints (env : Env) (s : Str) (hs : Short s) (hj : Safe env s) (l : List (Str × Int × Int))
    (hr : ∀ x ∈ l, -2 ^ 31 ≤ x.2.2 ∧ x.2.2 < 2 ^ 31) (tail : List Str)
    (hc : contents s = (l.flatMap fun x => [x.1, printInt x.2.2]) ++ tail) :
    ∃ f', readPars env fmtD (l.map fun x => (x.1, x.2.1)) (openText s) = .ok (l.map fun x => x.2.2, f') := by
  rw [C71_tags_partial env fmtD s hs hj _ (by
    rw [hc]
    simp only [List.length_append, List.length_map, List.length_flatMap]
    have : (l.map fun x : Str × Int × Int => [x.1, printInt x.2.2].length).sum = 2 * l.length := by
      rw [show (fun x : Str × Int × Int => [x.1, printInt x.2.2].length) = fun _ => 2 from rfl]
      simp; omega
    omega)]
  rw [hc]
  clear hc
  induction l with
  | nil => simp only [List.map_nil, List.flatMap_nil, List.nil_append]; cases tail <;> rfl
  | cons x l ih =>
    simp only [List.map_cons, List.flatMap_cons, List.cons_append, List.nil_append, List.append_assoc]
    refine ⟨by unfold sameCase; simp, C71_int _ (hr x (by simp)).1 (hr x (by simp)).2, ?_⟩
    exact ih (fun y hy => hr y (List.mem_cons_of_mem _ hy))

/-! ### Lists -/

theorem read_entries {α : Type} {env : Env} {b lo : Bool} (fmt : Str → Scan α) (old : α) (vs : List (Str × α)) (hv : ∀ x ∈ vs, fmt x.1 = .val x.2) :
    ∀ (rs : List Str) (f : Inp), At env b lo (vs.map Prod.fst ++ rs) f →
    ∃ f', readEntries env fmt old vs.length f = .ok (vs.map Prod.snd, f') ∧ At env b lo rs f' := by
  induction vs with
  | nil => intro rs f h; exact ⟨f, rfl, h⟩
  | cons x vs ih =>
    intro rs f h
    rw [List.map_cons, List.cons_append] at h
    obtain ⟨f1, h1, -, h3⟩ := at_val h fmt old
    rw [hv x (by simp)] at h3
    obtain ⟨f2, h4, h5⟩ := ih (fun y hy => hv y (List.mem_cons_of_mem _ hy)) rs f1 h1
    refine ⟨f2, ?_, h5⟩
    rw [List.length_cons, readEntries, h3]
    simp only
    rw [h4]
    rfl

/-- **C71 (lists)**: a list written as its tag, the number of entries and the entries is read entry by entry, and the reading goes on from what
follows -/
theorem C71_list {α : Type} (env : Env) (fmt : Str → Scan α) (old : α) (nold : Int) (s : Str) (hs : Short s) (hj : Safe env s) (tag t : Str)
    (vs : List (Str × α)) (hn : vs.length < 2 ^ 31) (hv : ∀ x ∈ vs, fmt x.1 = .val x.2) (tail : List Str) (ht : sameCase tag t = true)
    (hc : contents s = t :: printInt vs.length :: (vs.map Prod.fst ++ tail)) (m : Nat) (hm : m ≤ tail.length) :
    ∃ f' f'', readListOfVar env fmt old tag nold (openText s) = .ok (vs.map Prod.snd, f') ∧ readWords env m f' = .ok (tail.take m, f'') := by
  have h := at_open env s hs hj
  rw [hc] at h
  obtain ⟨f1, h1, -, h3⟩ := at_val h (fmtS 1024) env.junk
  have hf : fmtS 1024 t = .val t := by unfold fmtS; rw [if_pos (out_words_short h t (by simp))]
  rw [hf] at h3
  have hstr : readStr env 1024 env.junk (openText s) = .ok (t, f1) := h3
  obtain ⟨f2, g1, -, g3⟩ := at_val h1 fmtD nold
  rw [C71_int _ (by omega) (by exact_mod_cast hn)] at g3
  obtain ⟨f3, k1, k2⟩ := read_entries fmt old vs hv tail f2 g1
  obtain ⟨f4, k3, _⟩ := read_words m tail f3 k2 hm
  refine ⟨f3, f4, ?_, k3⟩
  unfold readListOfVar readStrVar expectStr
  rw [hstr]
  simp only
  rw [if_pos ht]
  simp only
  rw [g3]
  exact k1

/-! ### nissa_config -/

/-- what the assignments of a configuration file should do: `none` when the program has to stop -/
def configSpec (tags : List Str) (ign : Str) : Pars → List (Str × Str) → Option Pars
  | p, [] => some p
  | p, (n, v) :: l =>
    if n ∈ tags then
      match fmtD v with
      | .val x => configSpec tags ign (setPar p n x) l
      | _ => none
    else if p ign ≠ 0 then configSpec tags ign p l else none

theorem config_step {env : Env} {tags : List Str} {ign : Str} {p : Pars} {f : Inp} {b lo : Bool} {n v : Str} {rs : List Str}
    (h : At env b lo (n :: v :: rs) f) (hn : n.length < 100) (hv : v.length < 100) :
    (∃ f', At env b lo rs f' ∧ readConfig env tags ign p f =
      if n ∈ tags then (match fmtD v with | .val x => readConfig env tags ign (setPar p n x) f' | .noMatch => .error .crash | .bad e => .error e)
      else if p ign ≠ 0 then readConfig env tags ign p f' else .error .crash) := by
  obtain ⟨f1, h1, h2, -⟩ := at_val h (fmtS 100) ([] : Str)
  have hf : fmtS 100 n = .val n := by unfold fmtS; rw [if_pos (by omega)]
  rw [hf] at h2
  simp only at h2
  obtain ⟨f2, g1, -, g3⟩ := at_val h1 fmtD (p n)
  obtain ⟨f3, k1, k2, -⟩ := at_val h1 (fmtS 100) ([] : Str)
  have hf2 : fmtS 100 v = .val v := by unfold fmtS; rw [if_pos (by omega)]
  rw [hf2] at k2
  simp only at k2
  by_cases hm : n ∈ tags
  · refine ⟨f2, g1, ?_⟩
    rw [if_pos hm, readConfig]
    split
    · rename_i e he; rw [h2] at he; cases he
    · rename_i nr w f4 he
      rw [h2] at he
      cases he
      rw [dif_pos rfl]
      simp only
      rw [if_pos hm]
      split
      · rename_i e he; rw [g3] at he
        cases hx : fmtD v with
        | noMatch => rw [hx] at he; cases he; rfl
        | bad e' => rw [hx] at he; cases he; rfl
        | val x => rw [hx] at he; cases he
      · rename_i x f5 he
        rw [g3] at he
        cases hx : fmtD v with
        | noMatch => rw [hx] at he; cases he
        | bad e' => rw [hx] at he; cases he
        | val x => rw [hx] at he; cases he; rfl
  · refine ⟨f3, k1, ?_⟩
    rw [if_neg hm, readConfig]
    split
    · rename_i e he; rw [h2] at he; cases he
    · rename_i nr w f4 he
      rw [h2] at he
      cases he
      rw [dif_pos rfl]
      simp only
      rw [if_neg hm]
      by_cases hi : p ign ≠ 0
      · rw [if_pos hi, if_pos hi]
        split
        · rename_i e he; rw [k2] at he; cases he
        · rename_i nr' v' f5 he
          rw [k2] at he; cases he; rfl
      · rw [if_neg hi, if_neg hi]

theorem config_end {env : Env} {tags : List Str} {ign : Str} {p : Pars} {f : Inp} {b lo : Bool} (h : At env b lo [] f) :
    readConfig env tags ign p f = if b = true ∧ lo = false then .ok p else .error .crash := by
  have hv : readVarCatcherr env (fmtS 100) f = if b = true ∧ lo = false then .ok ((-1, none), ⟨[], true⟩) else .error .crash := by
    unfold readVarCatcherr
    rw [at_end h]
    split_ifs <;> rfl
  rw [readConfig]
  split
  · rename_i e he
    rw [hv] at he
    split at he
    · cases he
    · rename_i hc; cases he; rw [if_neg hc]
  · rename_i nr w f4 he
    rw [hv] at he
    split at he
    · rename_i hc; cases he; rw [dif_neg (by omega), if_pos hc]
    · cases he

theorem config_run {env : Env} (tags : List Str) (ign : Str) (l : List (Str × Str)) : ∀ (p : Pars) (f : Inp) (b lo : Bool),
    At env b lo (l.flatMap fun x => [x.1, x.2]) f → (∀ x ∈ l, x.1.length < 100 ∧ x.2.length < 100) →
    (∀ p', configSpec tags ign p l = some p' → readConfig env tags ign p f = if b = true ∧ lo = false then .ok p' else .error .crash) ∧
    (configSpec tags ign p l = none → ∃ e, readConfig env tags ign p f = .error e) := by
  induction l with
  | nil =>
    intro p f b lo h _
    refine ⟨fun p' hp => ?_, fun hp => by cases hp⟩
    injection hp with hp
    subst hp
    exact config_end h
  | cons x l ih =>
    intro p f b lo h hlen
    obtain ⟨n, v⟩ := x
    rw [List.flatMap_cons] at h
    obtain ⟨f1, h1, h2⟩ := config_step (tags := tags) (ign := ign) (p := p) h (hlen (n, v) (by simp)).1 (hlen (n, v) (by simp)).2
    rw [h2, configSpec]
    have hlen' : ∀ y ∈ l, y.1.length < 100 ∧ y.2.length < 100 := fun y hy => hlen y (List.mem_cons_of_mem _ hy)
    by_cases hm : n ∈ tags
    · rw [if_pos hm, if_pos hm]
      cases hx : fmtD v with
      | val x => exact ih (setPar p n x) f1 b lo h1 hlen'
      | noMatch => exact ⟨fun p' hp => (by cases hp), fun _ => ⟨_, rfl⟩⟩
      | bad e => exact ⟨fun p' hp => (by cases hp), fun _ => ⟨_, rfl⟩⟩
    · rw [if_neg hm, if_neg hm]
      by_cases hi : p ign ≠ 0
      · rw [if_pos hi, if_pos hi]; exact ih p f1 b lo h1 hlen'
      · rw [if_neg hi, if_neg hi]; exact ⟨fun p' hp => (by cases hp), fun _ => ⟨_, rfl⟩⟩

/-- value of a parameter after a list of assignments: the last one, or the initial value -/
def lastAssigned (l : List (Str × Int)) (n : Str) (dflt : Int) : Int :=
  match (l.reverse.find? fun x => x.1 = n) with
  | some x => x.2
  | none => dflt

theorem configSpec_known (tags : List Str) (ign : Str) (l : List (Str × Int)) (hr : ∀ x ∈ l, x.1 ∈ tags ∧ -2 ^ 31 ≤ x.2 ∧ x.2 < 2 ^ 31) : ∀ p,
    configSpec tags ign p (l.map fun x => (x.1, printInt x.2)) = some (fun n => lastAssigned l n (p n)) := by
  induction l with
  | nil => intro p; rfl
  | cons x l ih =>
    intro p
    obtain ⟨h1, h2, h3⟩ := hr x (by simp)
    rw [List.map_cons, configSpec, if_pos h1, C71_int _ h2 h3]
    simp only
    rw [ih (fun y hy => hr y (List.mem_cons_of_mem _ hy))]
    congr 1
    funext n
    unfold lastAssigned setPar
    rw [List.reverse_cons, List.find?_append]
    cases hf : l.reverse.find? fun x => x.1 = n with
    | some y => rfl
    | none =>
      by_cases hn : n = x.1
      · subst hn; simp
      · have : ¬ x.1 = n := fun h => hn h.symm
        simp [hn, this]

/-- **C71 (nissa_config)**: a configuration file assigning integers to known names, in any order and layout and with any comments, and ending with a
blank, gives to each parameter the last value assigned to it, and leaves the others at their defaults -/
theorem C71_config_partial (env : Env) (tags : List Str) (ign : Str) (p : Pars) (s : Str) (hs : Short s) (hj : Safe env s) (l : List (Str × Int))
    (hr : ∀ x ∈ l, (x.1 ∈ tags ∧ x.1.length < 100) ∧ -2 ^ 31 ≤ x.2 ∧ x.2 < 2 ^ 31) (hc : contents s = l.flatMap fun x => [x.1, printInt x.2])
    (hb : endsBlank s = true) (hlo : leftOpen false (words s) = false) :
    readConfig env tags ign p (openText s) = .ok (fun n => lastAssigned l n (p n)) := by
  have h := at_open env s hs hj
  rw [hc, hb, hlo] at h
  have hk := configSpec_known tags ign l (fun x hx => ⟨(hr x hx).1.1, (hr x hx).2⟩) p
  have := (config_run tags ign (l.map fun x => (x.1, printInt x.2)) p (openText s) true false (by rw [List.flatMap_map]; exact h) (by
    intro x hx
    rw [List.mem_map] at hx
    obtain ⟨y, hy, rfl⟩ := hx
    refine ⟨(hr y hy).1.2, ?_⟩
    have := (printInt_length y.2 (hr y hy).2.1 (hr y hy).2.2).2
    show (printInt y.2).length < 100
    omega)).1 _ hk
  rw [this, if_pos ⟨rfl, rfl⟩]

/-- **C71 (nissa_config, violated)**: the same file without the final blank stops the program, although all of it has been understood -/
theorem C71_violated_config_end (env : Env) (tags : List Str) (ign : Str) (p : Pars) (s : Str) (hs : Short s) (hj : Safe env s) (l : List (Str × Int))
    (hr : ∀ x ∈ l, (x.1 ∈ tags ∧ x.1.length < 100) ∧ -2 ^ 31 ≤ x.2 ∧ x.2 < 2 ^ 31) (hc : contents s = l.flatMap fun x => [x.1, printInt x.2])
    (hb : endsBlank s = false) :
    readConfig env tags ign p (openText s) = .error .crash := by
  have h := at_open env s hs hj
  rw [hc, hb] at h
  have hk := configSpec_known tags ign l (fun x hx => ⟨(hr x hx).1.1, (hr x hx).2⟩) p
  have := (config_run tags ign (l.map fun x => (x.1, printInt x.2)) p (openText s) false _ (by rw [List.flatMap_map]; exact h) (by
    intro x hx
    rw [List.mem_map] at hx
    obtain ⟨y, hy, rfl⟩ := hx
    refine ⟨(hr y hy).1.2, ?_⟩
    have := (printInt_length y.2 (hr y hy).2.1 (hr y hy).2.2).2
    show (printInt y.2).length < 100
    omega)).1 _ hk
  rw [this, if_neg (by rintro ⟨h, _⟩; cases h)]

/-- **C71 (nissa_config, unknown names)**: an unknown name stops the program, unless the parameter for skipping them has been set before it in the
same file (or is set by default), in which case its value is skipped -/
theorem C71_config_unknown (env : Env) (tags : List Str) (ign : Str) (p : Pars) (s : Str) (hs : Short s) (hj : Safe env s)
    (l l' : List (Str × Int)) (hr : ∀ x ∈ l ++ l', x.1.length < 100 ∧ -2 ^ 31 ≤ x.2 ∧ x.2 < 2 ^ 31) (hk : ∀ x ∈ l ++ l', x.1 ∈ tags)
    (n v : Str) (hn : n ∉ tags) (hnl : n.length < 100) (hvl : v.length < 100)
    (hc : contents s = (l.flatMap fun x => [x.1, printInt x.2]) ++ n :: v :: (l'.flatMap fun x => [x.1, printInt x.2]))
    (hb : endsBlank s = true) (hlo : leftOpen false (words s) = false) :
    (lastAssigned l ign (p ign) = 0 → ∃ e, readConfig env tags ign p (openText s) = .error e) ∧
    (lastAssigned l ign (p ign) ≠ 0 → readConfig env tags ign p (openText s) = .ok (fun m => lastAssigned (l ++ l') m (p m))) := by
  have h := at_open env s hs hj
  have hl : contents s = ((l.map fun x => (x.1, printInt x.2)) ++ (n, v) :: (l'.map fun x => (x.1, printInt x.2))).flatMap fun x => [x.1, x.2] := by
    rw [hc, List.flatMap_append, List.flatMap_cons, List.flatMap_map, List.flatMap_map]; rfl
  rw [hl, hb, hlo] at h
  have hlen : ∀ (l : List (Str × Int)), (∀ x ∈ l, x.1.length < 100 ∧ -2 ^ 31 ≤ x.2 ∧ x.2 < 2 ^ 31) → ∀ x ∈ l.map (fun x => (x.1, printInt x.2)),
      x.1.length < 100 ∧ x.2.length < 100 := by
    intro l hl x hx
    rw [List.mem_map] at hx
    obtain ⟨y, hy, rfl⟩ := hx
    have h1 := hl y hy
    have := (printInt_length y.2 h1.2.1 h1.2.2).2
    exact ⟨h1.1, by show (printInt y.2).length < 100; omega⟩
  have hrun := config_run tags ign _ p (openText s) true false h (by
    intro x hx
    rcases List.mem_append.1 hx with hx | hx
    · exact hlen l (fun y hy => hr y (List.mem_append_left _ hy)) x hx
    · rcases List.mem_cons.1 hx with hx | hx
      · rw [hx]; exact ⟨hnl, hvl⟩
      · exact hlen l' (fun y hy => hr y (List.mem_append_right _ hy)) x hx)
  have happ : ∀ (a : List (Str × Str)) (c : List (Str × Str)) (q : Pars), configSpec tags ign q (a ++ c) = (configSpec tags ign q a).bind (fun q' => configSpec tags ign q' c) := by
    intro a c
    induction a with
    | nil => intro q; rfl
    | cons x a ih =>
      intro q
      rw [List.cons_append, configSpec, configSpec]
      split
      · split
        · exact ih _
        · rfl
      · split
        · exact ih _
        · rfl
  rw [happ, configSpec_known tags ign l (fun x hx => ⟨hk x (List.mem_append_left _ hx), (hr x (List.mem_append_left _ hx)).2⟩) p] at hrun
  simp only [Option.bind_some] at hrun
  rw [configSpec, if_neg hn] at hrun
  constructor
  · intro h0
    rw [if_neg (by rw [h0]; simp)] at hrun
    exact hrun.2 rfl
  · intro h0
    rw [if_pos h0, configSpec_known tags ign l' (fun x hx => ⟨hk x (List.mem_append_right _ hx), (hr x (List.mem_append_right _ hx)).2⟩)] at hrun
    rw [hrun.1 _ rfl, if_pos (by decide)]
    congr 1
    funext m
    unfold lastAssigned
    rw [List.reverse_append, List.find?_append]
    cases l'.reverse.find? fun x => x.1 = m <;> rfl

/-! ### Nested files -/

/-- **C71 (nested files)**: an input file opened while reading another one, read to any point and closed gives back the first one where it was left -/
theorem C71_nested (s : Str) (st : Files) (hst : st.cur = none → st.stack = []) (f : Inp) :
    closeInput { openInput s st with cur := some f } = .ok st := by
  obtain ⟨cur, stack⟩ := st
  cases cur with
  | none =>
    have := hst rfl
    simp only at this
    subst this
    simp [openInput, closeInput]
  | some g => simp [openInput, closeInput]

/-! ### What goes wrong -/

/-- **C71 (violated)**: an isolated slash inside a comment is compared together with the character which happens to be in memory before it: if it is
a star, the comment ends there -/
theorem C71_violated_slash (env : Env) :
    (env.below1 = 42 → ∃ f, readTok env (openText (txt "/* this / that */ L 8\n")) = .ok (some (txt "that"), f)) ∧
    (env.below1 ≠ 42 → ∃ f, readTok env (openText (txt "/* this / that */ L 8\n")) = .ok (some (txt "L"), f)) := by
  have hw : words (txt "/* this / that */ L 8\n") = [txt "/*", txt "this", txt "/", txt "that", txt "*/", txt "L", txt "8"] := by decide +kernel
  constructor
  · intro h
    have hS : Short (txt "/* this / that */ L 8\n") := by unfold Short; rw [hw]; decide +kernel
    obtain ⟨f1, a1, a2, a3⟩ := next_word _ _ (K_open (txt "/* this / that */ L 8\n")) hS _ _ hw
    have hS1 : Short f1.rest := by unfold Short; rw [a3]; decide +kernel
    obtain ⟨f2, b1, b2, b3⟩ := next_word _ _ a2 hS1 _ _ a3
    have hS2 : Short f2.rest := by unfold Short; rw [b3]; decide +kernel
    obtain ⟨f3, c1, c2, c3⟩ := next_word _ _ b2 hS2 _ _ b3
    have hS3 : Short f3.rest := by unfold Short; rw [c3]; decide +kernel
    obtain ⟨f4, d1, d2, d3⟩ := next_word _ _ c2 hS3 _ _ c3
    refine ⟨f4, ?_⟩
    have e1 : endsComment env (txt "/*") = false := by
      rw [ends_eq env _ (by decide) (fun _ => by decide)]; decide
    have e2 : endsComment env (txt "this") = false := by
      rw [ends_eq env _ (by decide) (fun _ => by decide)]; decide
    have e3 : endsComment env (txt "/") = true := by
      unfold endsComment
      show ((env.below2 :: env.below1 :: [47]).drop 1).take 2 == [42, 47]
      simp [h]
    have u2 : readUpToEnd env f2 = .ok f3 := by
      rw [readUpToEnd]
      split
      · rename_i h2; rw [c1] at h2; cases h2
      · rename_i h2; rw [c1] at h2; cases h2
      · rename_i h2; rw [c1] at h2; cases h2; simp only; rw [if_pos e3]
    have u1 : readUpToEnd env f1 = .ok f3 := by
      rw [readUpToEnd]
      split
      · rename_i h2; rw [b1] at h2; cases h2
      · rename_i h2; rw [b1] at h2; cases h2
      · rename_i h2; rw [b1] at h2; cases h2; simp only; rw [e2]; exact u2
    have u3 : readTok env f3 = .ok (some (txt "that"), f4) := by
      rw [readTok]
      split
      · rename_i h2; rw [d1] at h2; cases h2
      · rename_i h2; rw [d1] at h2; cases h2
      · rename_i h2; rw [d1] at h2; cases h2; simp only
        rw [if_neg (by decide)]
    rw [readTok]
    split
    · rename_i h2; rw [a1] at h2; cases h2
    · rename_i h2; rw [a1] at h2; cases h2
    · rename_i h2; rw [a1] at h2; cases h2; simp only
      rw [if_pos (by decide), e1]
      simp only [Bool.false_eq_true, if_false]
      split
      · rename_i h3; rw [u1] at h3; cases h3
      · rename_i h3; rw [u1] at h3; cases h3; exact u3
  · intro h
    have hS : Short (txt "/* this / that */ L 8\n") := by unfold Short; rw [hw]; decide +kernel
    have hA := at_open env (txt "/* this / that */ L 8\n") hS (fun h' => absurd h' h)
    have hcn : contents (txt "/* this / that */ L 8\n") = [txt "L", txt "8"] := by unfold contents; rw [hw]; decide +kernel
    rw [hcn] at hA
    obtain ⟨f, h1, _⟩ := at_tok hA
    exact ⟨f, h1⟩

/-- **C71 (violated)**: a word of 1024 characters or more is written past the end of the array -/
theorem C71_violated_long (env : Env) (w : Str) (hw : ∀ c ∈ w, isSpace c = false) (hl : 1024 ≤ w.length) (s : Str) :
    readTok env (openText (w ++ 32 :: s)) = .error .overrun := by
  cases w with
  | nil => simp at hl
  | cons c t =>
    have hc := hw c (by simp)
    have hf : fscanfS (openText (c :: t ++ 32 :: s)) = (some (c :: t), ⟨32 :: s, false⟩) := by
      unfold fscanfS openText
      have e1 : (c :: t ++ 32 :: s).dropWhile isSpace = c :: t ++ 32 :: s := by
        rw [List.cons_append, List.dropWhile_cons, hc]; rfl
      simp only
      rw [e1]
      simp only [List.cons_append]
      have e2 : (c :: (t ++ 32 :: s)).takeWhile (fun c => !isSpace c) = c :: t := by
        rw [← List.cons_append, List.takeWhile_append_of_pos (by intro x hx; rw [hw x hx]; rfl)]
        simp [List.takeWhile_cons, isSpace]
      have e3 : (c :: (t ++ 32 :: s)).dropWhile (fun c => !isSpace c) = 32 :: s := by
        rw [← List.cons_append, List.dropWhile_append_of_pos (by intro x hx; rw [hw x hx]; rfl)]
        simp [List.dropWhile_cons, isSpace]
      rw [e2, e3]
      rfl
    have hn : readNextToken (openText (c :: t ++ 32 :: s)) = .error .overrun := by
      unfold readNextToken
      rw [hf]
      simp only [openText, Bool.false_eq_true, if_false]
      rw [if_neg (by omega)]
    rw [readTok]
    split
    · rename_i h2; rw [hn] at h2; cases h2; rfl
    · rename_i h2; rw [hn] at h2; cases h2
    · rename_i h2; rw [hn] at h2; cases h2

/-- **C71 (file_lock, violated)**: file_lock gives a descriptor exactly when the lock has not been taken -/
theorem C71_violated_file_lock (fd status : Int) (hfd : fd ≠ 0) : fileLock fd status ≠ 0 ↔ status ≠ 0 := by
  unfold fileLock
  split <;> simp_all

/-! ### A concrete file -/

/-- an input file with comments and some layout -/
def exText : Str := txt "/* geometry\n of the box */ L 8\nT\t\t16\n\n/*nothing*/ seed -7\n"

theorem exText_words : words exText = [txt "/*", txt "geometry", txt "of", txt "the", txt "box", txt "*/", txt "L", txt "8", txt "T", txt "16",
    txt "/*nothing*/", txt "seed", txt "-7"] := by decide +kernel

theorem exText_contents : contents exText = [txt "L", txt "8", txt "T", txt "16", txt "seed", txt "-7"] := by
  unfold contents; rw [exText_words]; decide +kernel

theorem exText_short : Short exText := by unfold Short; rw [exText_words]; decide +kernel
theorem exText_safe (env : Env) : Safe env exText := by intro _; rw [exText_words]; decide +kernel

example (env : Env) : ∃ f', readPars env fmtD [(txt "l", 0), (txt "t", 0), (txt "Seed", 0)] (openText exText) = .ok ([8, 16, -7], f') := by
  rw [C71_tags_partial env fmtD exText exText_short (exText_safe env) _ (by rw [exText_contents]; decide)]
  rw [exText_contents]
  refine ⟨by decide, ?_, by decide, ?_, by decide, ?_, rfl⟩
  · have := C71_int 8 (by decide) (by decide)
    have e : printInt 8 = txt "8" := by decide +kernel
    rw [e] at this; exact this
  · have := C71_int 16 (by decide) (by decide)
    have e : printInt 16 = txt "16" := by decide +kernel
    rw [e] at this; exact this
  · have := C71_int (-7) (by decide) (by decide)
    have e : printInt (-7) = txt "-7" := by decide +kernel
    rw [e] at this; exact this

example (env : Env) : ∀ vs f', readPars env fmtD [(txt "T", 0), (txt "L", 0)] (openText exText) ≠ .ok (vs, f') := by
  intro vs f' h
  have := (C71_tags_partial env fmtD exText exText_short (exText_safe env) [(txt "T", 0), (txt "L", 0)] (by rw [exText_contents]; decide) vs).1 ⟨f', h⟩
  rw [exText_contents] at this
  cases vs with
  | nil => exact this
  | cons x vs => exact absurd this.1 (by decide)

/-- a configuration file -/
def exConfig : Str := txt "verbosity_lv 2 /* talk */\nset_t_nranks 4\nverbosity_lv 3\n"

example (env : Env) : ∃ p', readConfig env configTags (txt "ignore_unknown_parameters") (fun _ => 0) (openText exConfig) = .ok p' ∧
    p' (txt "verbosity_lv") = 3 ∧ p' (txt "set_t_nranks") = 4 ∧ p' (txt "prepend_time") = 0 := by
  have hw : words exConfig = [txt "verbosity_lv", txt "2", txt "/*", txt "talk", txt "*/", txt "set_t_nranks", txt "4", txt "verbosity_lv", txt "3"] := by
    decide +kernel
  refine ⟨_, C71_config_partial env configTags _ _ exConfig (by unfold Short; rw [hw]; decide +kernel) (by intro _; rw [hw]; decide +kernel)
    [(txt "verbosity_lv", 2), (txt "set_t_nranks", 4), (txt "verbosity_lv", 3)] (by decide +kernel) (by unfold contents; rw [hw]; decide +kernel)
    (by decide +kernel) (by rw [hw]; decide +kernel), by decide +kernel, by decide +kernel, by decide +kernel⟩

/-- the same character, or the same letter from A (65) to Z (90) and from a (97) to z (122) -/
def SameLetter (a b : Nat) : Prop := a = b ∨ ∃ k < 26, (a = 65 + k ∧ b = 97 + k) ∨ (a = 97 + k ∧ b = 65 + k)

/-- C71: tags match exactly when they have the same letters, capital or not, and otherwise the same characters -/
theorem C71_case (a b : Str) : sameCase a b = true ↔ List.Forall₂ SameLetter a b := by
  have key : ∀ x y, lower x = lower y ↔ SameLetter x y := by
    intro x y
    unfold lower SameLetter
    constructor
    · intro h
      split at h <;> split at h
      · left; omega
      · right; exact ⟨x - 65, by omega, by omega⟩
      · right; exact ⟨y - 65, by omega, by omega⟩
      · left; exact h
    · rintro (h | ⟨k, hk, h | h⟩)
      · rw [h]
      · rw [if_pos (by omega), if_neg (by omega)]; omega
      · rw [if_neg (by omega), if_pos (by omega)]; omega
  unfold sameCase
  rw [beq_iff_eq]
  induction a generalizing b with
  | nil =>
    cases b with
    | nil => simp
    | cons y b => exact ⟨fun h => by simp at h, fun h => by cases h⟩
  | cons x a ih =>
    cases b with
    | nil => exact ⟨fun h => by simp at h, fun h => by cases h⟩
    | cons y b =>
      rw [List.map_cons, List.map_cons, List.cons.injEq, List.forall₂_cons, key]
      exact and_congr Iff.rfl (ih b)

example : sameCase (txt "NGaugeConf") (txt "nGAUGEconf") = true ∧ sameCase (txt "T") (txt "L") = false := by decide +kernel

end Nissa.Inp
