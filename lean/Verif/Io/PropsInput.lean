/-
C71: what a program gets from an input file: the words outside comments, in order, whatever the layout; a tag out of place stops the program.
-/
import Verif.Io.Input
import Mathlib.Data.List.TakeWhile
set_option linter.all false

namespace Nissa.Inp
open Nissa.Text

/-! ### Specification -/

/-- the words of a text: the maximal pieces without white spaces -/
def words (s : Str) : List Str := (s.splitOnP isSpace).filter (fun w => !w.isEmpty)

/-- a word beginning with the slash and the star opens a comment -/
def opens (w : Str) : Bool := [47, 42].isPrefixOf w

/-- a word ending with the star and the slash closes it -/
def closes (w : Str) : Bool := [42, 47].isSuffixOf w

/-- the words outside the comments; `inC` tells whether we start inside one -/
def outside : Bool → List Str → List Str
  | _, [] => []
  | true, w :: ws => outside (!closes w) ws
  | false, w :: ws => if opens w then outside (!closes w) ws else w :: outside false ws

/-- whether the last comment is left open -/
def leftOpen : Bool → List Str → Bool
  | b, [] => b
  | true, w :: ws => leftOpen (!closes w) ws
  | false, w :: ws => if opens w then leftOpen (!closes w) ws else leftOpen false ws

/-- the words outside the comments of a text -/
def contents (s : Str) : List Str := outside false (words s)

/-- the text is empty or its last character is a white space (such as the end of the last line) -/
def endsBlank (s : Str) : Bool := match s.getLast? with
  | none => true
  | some c => isSpace c

/-- conditions on the text: no word of 1024 characters or more -/
def Short (s : Str) : Prop := ∀ w ∈ words s, w.length < 1024

/-- no isolated slash inside a comment, unless the character found in memory before the token is not a star -/
def Safe (env : Env) (s : Str) : Prop := env.below1 = 42 → [47] ∉ words s

/-! ### Words -/

theorem words_nil : words [] = [] := by simp [words]

theorem words_space (c : Nat) (hc : isSpace c = true) (s : Str) : words (c :: s) = words s := by
  unfold words
  have := List.splitOnP_append_cons_of_forall_mem (p := isSpace) (xs := ([] : Str)) (by simp) c hc s
  rw [List.nil_append] at this
  rw [this]
  simp

theorem words_dropWhile (s : Str) : words (s.dropWhile isSpace) = words s := by
  induction s with
  | nil => rfl
  | cons c s ih =>
    rw [List.dropWhile_cons]
    split
    · rename_i hc; rw [ih, words_space c hc]
    · rfl

theorem words_sep (w : Str) (hw : w ≠ []) (h : ∀ c ∈ w, isSpace c = false) (c : Nat) (hc : isSpace c = true) (s : Str) :
    words (w ++ c :: s) = w :: words s := by
  unfold words
  rw [List.splitOnP_append_cons_of_forall_mem (p := isSpace) (xs := w) (by intro x hx; rw [h x hx]) c hc s]
  cases w with
  | nil => exact absurd rfl hw
  | cons a w => simp

theorem words_one (w : Str) (hw : w ≠ []) (h : ∀ c ∈ w, isSpace c = false) : words w = [w] := by
  unfold words
  rw [List.splitOnP_eq_singleton (p := isSpace) (xs := w) (by intro x hx; rw [h x hx])]
  cases w with
  | nil => exact absurd rfl hw
  | cons a w => simp

theorem takeWhile_sp (l : Str) : ∀ c ∈ l.takeWhile (fun c => !isSpace c), isSpace c = false := by
  intro c hc
  have := List.mem_takeWhile_imp hc
  simpa using this

/-- the state of the file: `b` tells whether the whole text ends with a blank -/
def K (b : Bool) (f : Inp) : Prop := (f.eof = true ∧ f.rest = [] ∧ b = false) ∨ (f.eof = false ∧ endsBlank f.rest = b)

theorem K_open (s : Str) : K (endsBlank s) (openText s) := Or.inr ⟨rfl, rfl⟩

theorem endsBlank_all (s : Str) (h : s.dropWhile isSpace = []) : endsBlank s = true := by
  unfold endsBlank
  cases hg : s.getLast? with
  | none => rfl
  | some c =>
    have hm := List.mem_of_getLast? hg
    have := List.dropWhile_eq_nil_iff.1 h c hm
    simpa using this

/-- the next token is the next word -/
theorem next_word (b : Bool) (f : Inp) (hK : K b f) (hs : Short f.rest) (w : Str) (ws : List Str) (h : words f.rest = w :: ws) :
    ∃ f', readNextToken f = .ok (some w, f') ∧ K b f' ∧ words f'.rest = ws := by
  have heof : f.eof = false ∧ endsBlank f.rest = b := by
    rcases hK with ⟨_, h2, _⟩ | h'
    · rw [h2, words_nil] at h; cases h
    · exact h'
  unfold readNextToken
  rw [heof.1]
  simp only [Bool.false_eq_true, if_false]
  unfold fscanfS
  cases hd : f.rest.dropWhile isSpace with
  | nil =>
    rw [← words_dropWhile, hd, words_nil] at h; cases h
  | cons c l =>
    have hc : isSpace c = false := by
      have := List.head?_dropWhile_not isSpace f.rest
      rw [hd] at this
      simpa using this
    simp only
    have hsplit : c :: l = (c :: l).takeWhile (fun c => !isSpace c) ++ (c :: l).dropWhile (fun c => !isSpace c) := List.takeWhile_append_dropWhile.symm
    have htw : (c :: l).takeWhile (fun c => !isSpace c) ≠ [] := by
      rw [List.takeWhile_cons, hc]; simp
    have hnsp := takeWhile_sp (c :: l)
    generalize htk : (c :: l).takeWhile (fun c => !isSpace c) = tk at hsplit htw hnsp ⊢
    have hW : words f.rest = words (c :: l) := by rw [← words_dropWhile, hd]
    have hEB : endsBlank f.rest = endsBlank (c :: l) := by
      obtain ⟨pre, hpre⟩ : ∃ pre, f.rest = pre ++ (c :: l) := ⟨f.rest.takeWhile isSpace, by rw [← hd, List.takeWhile_append_dropWhile]⟩
      unfold endsBlank
      rw [hpre, List.getLast?_append]
      cases hh : (c :: l).getLast? with
      | none => simp at hh
      | some x => rfl
    cases hr : (c :: l).dropWhile (fun c => !isSpace c) with
    | nil =>
      rw [hr, List.append_nil] at hsplit
      have hw1 : words (c :: l) = [tk] := by rw [hsplit]; exact words_one tk htw hnsp
      rw [hW, hw1] at h
      injection h with h1 h2
      subst h1
      have hlen : tk.length + 1 ≤ 1024 := by
        have := hs tk (by rw [hW, hw1]; simp)
        omega
      rw [if_pos hlen]
      refine ⟨⟨[], true⟩, rfl, Or.inl ⟨rfl, rfl, ?_⟩, by rw [words_nil, h2]⟩
      rw [← heof.2, hEB, hsplit]
      unfold endsBlank
      cases hg : tk.getLast? with
      | none => simp at hg; exact absurd hg htw
      | some x => exact hnsp x (List.mem_of_getLast? hg)
    | cons d r =>
      have hdsp : isSpace d = true := by
        have := List.head?_dropWhile_not (fun c => !isSpace c) (c :: l)
        rw [hr] at this
        simpa using this
      rw [hr] at hsplit
      have hw1 : words (c :: l) = tk :: words r := by rw [hsplit]; exact words_sep tk htw hnsp d hdsp r
      rw [hW, hw1] at h
      injection h with h1 h2
      subst h1
      have hlen : tk.length + 1 ≤ 1024 := by
        have := hs tk (by rw [hW, hw1]; simp)
        omega
      rw [if_pos hlen]
      refine ⟨⟨d :: r, false⟩, rfl, Or.inr ⟨rfl, ?_⟩, by show words (d :: r) = ws; rw [words_space d hdsp, h2]⟩
      rw [← heof.2, hEB, hsplit]
      unfold endsBlank
      show _ = match (tk ++ d :: r).getLast? with | none => true | some c => isSpace c
      rw [List.getLast?_append]
      cases hh : (d :: r).getLast? with
      | none => simp at hh
      | some x => rfl

/-- no word left: end of file with a blank, CRASH without -/
theorem next_none (b : Bool) (f : Inp) (hK : K b f) (h : words f.rest = []) :
    (b = true → readNextToken f = .ok (none, ⟨[], true⟩)) ∧ (b = false → readNextToken f = .error .crash) := by
  have hd : f.rest.dropWhile isSpace = [] := by
    cases hd : f.rest.dropWhile isSpace with
    | nil => rfl
    | cons c l =>
      exfalso
      have hc : isSpace c = false := by
        have := List.head?_dropWhile_not isSpace f.rest
        rw [hd] at this
        simpa using this
      have hnsp := takeWhile_sp (c :: l)
      have htw : (c :: l).takeWhile (fun c => !isSpace c) ≠ [] := by
        rw [List.takeWhile_cons, hc]; simp
      have hsplit : c :: l = (c :: l).takeWhile (fun c => !isSpace c) ++ (c :: l).dropWhile (fun c => !isSpace c) := List.takeWhile_append_dropWhile.symm
      rw [← words_dropWhile, hd] at h
      generalize (c :: l).takeWhile (fun c => !isSpace c) = tk at hsplit htw hnsp
      cases hr : (c :: l).dropWhile (fun c => !isSpace c) with
      | nil => rw [hr, List.append_nil] at hsplit; rw [hsplit, words_one tk htw hnsp] at h; cases h
      | cons d r =>
        have hdsp : isSpace d = true := by
          have := List.head?_dropWhile_not (fun c => !isSpace c) (c :: l)
          rw [hr] at this
          simpa using this
        rw [hr] at hsplit; rw [hsplit, words_sep tk htw hnsp d hdsp r] at h; cases h
  rcases hK with ⟨h1, h2, h3⟩ | ⟨h1, h2⟩
  · refine ⟨fun hb => (by rw [h3] at hb; cases hb), fun _ => ?_⟩
    unfold readNextToken; rw [h1]; rfl
  · have hb : b = true := by rw [← h2]; exact endsBlank_all _ hd
    refine ⟨fun _ => ?_, fun hb' => (by rw [hb] at hb'; cases hb')⟩
    unfold readNextToken
    rw [h1]
    simp only [Bool.false_eq_true, if_false]
    unfold fscanfS
    rw [hd]

/-! ### Comments -/

theorem starts_eq (w : Str) : startsComment w = opens w := by
  unfold startsComment opens
  match w with
  | [] => rfl
  | [a] => simp [List.isPrefixOf]
  | a :: b :: l =>
    simp only [List.take, List.isPrefixOf]
    rw [Bool.eq_iff_iff]; simp only [beq_iff_eq, List.cons.injEq, and_true, Bool.and_eq_true]; exact ⟨fun h => ⟨h.1.symm, h.2.symm⟩, fun h => ⟨h.1.symm, h.2.symm⟩⟩

theorem ends_eq (env : Env) (w : Str) (hw : w ≠ []) (hj : env.below1 = 42 → w ≠ [47]) : endsComment env w = closes w := by
  unfold endsComment closes
  match w with
  | [] => exact absurd rfl hw
  | [a] =>
    have : (decide ([42, 47] <:+ [a]) : Bool) = false := by
      simp only [decide_eq_false_iff_not]
      intro h; have := h.length_le; simp at this
    have hs : List.isSuffixOf [42, 47] [a] = false := by
      rw [Bool.eq_false_iff]; intro h; rw [List.isSuffixOf_iff_suffix] at h; have := h.length_le; simp at this
    rw [hs]
    simp only [List.length_cons, List.length_nil, List.drop_succ_cons, List.drop_zero, List.take]
    rw [Bool.eq_false_iff]
    intro h
    simp at h
    exact hj h.1 (by rw [h.2])
  | a :: b :: l =>
    have hdrop : (env.below2 :: env.below1 :: a :: b :: l).drop (a :: b :: l).length = (a :: b :: l).drop ((a :: b :: l).length - 2) := by
      simp
    rw [hdrop]
    have hlen : ((a :: b :: l).drop ((a :: b :: l).length - 2)).length = 2 := by
      rw [List.length_drop]; simp; omega
    rw [List.take_of_length_le (by omega)]
    rw [Bool.eq_iff_iff, List.isSuffixOf_iff_suffix]
    constructor
    · intro h
      rw [beq_iff_eq] at h
      rw [← h]; exact List.drop_suffix _ _
    · intro h
      rw [beq_iff_eq]
      have := List.suffix_iff_eq_drop.1 h
      simpa using this.symm

theorem words_ne_nil (s : Str) : ∀ w ∈ words s, w ≠ [] := by
  intro w hw
  unfold words at hw
  have := (List.mem_filter.1 hw).2
  intro h; rw [h] at this; simp at this

theorem sub_short {s s' : Str} (h : ∀ w ∈ words s', w ∈ words s) (hs : Short s) : Short s' := fun w hw => hs w (h w hw)
theorem sub_safe {env : Env} {s s' : Str} (h : ∀ w ∈ words s', w ∈ words s) (hs : Safe env s) : Safe env s' := fun hj hw => hs hj (h _ hw)

theorem end_comment (env : Env) (b : Bool) (ws : List Str) : ∀ f, K b f → Short f.rest → Safe env f.rest → words f.rest = ws →
    (∃ f' us, readUpToEnd env f = .ok f' ∧ K b f' ∧ words f'.rest = us ∧ (∀ w ∈ us, w ∈ ws) ∧ us.length ≤ ws.length ∧ outside true ws = outside false us
      ∧ leftOpen true ws = leftOpen false us)
    ∨ (readUpToEnd env f = .error .crash ∧ outside true ws = [] ∧ leftOpen true ws = true) := by
  induction ws with
  | nil =>
    intro f hK hS hJ h
    right
    have hn := next_none b f hK h
    refine ⟨?_, rfl, rfl⟩
    rw [readUpToEnd]
    cases b
    · have := hn.2 rfl
      split
      · rename_i e h1; rw [this] at h1; cases h1; rfl
      · rfl
      · rename_i h1; rw [this] at h1; cases h1
    · have := hn.1 rfl
      split
      · rename_i e h1; rw [this] at h1; cases h1
      · rfl
      · rename_i h1; rw [this] at h1; cases h1
  | cons w ws ih =>
    intro f hK hS hJ h
    obtain ⟨f1, h1, hK1, hw1⟩ := next_word b f hK hS w ws h
    have hin : ∀ u ∈ words f1.rest, u ∈ words f.rest := by rw [hw1, h]; intro u hu; exact List.mem_cons_of_mem _ hu
    have hne : w ≠ [] := words_ne_nil f.rest w (by rw [h]; simp)
    have hend := ends_eq env w hne (fun hj hw => hJ hj (by rw [h, hw]; simp))
    have hunf : readUpToEnd env f = if endsComment env w then .ok f1 else readUpToEnd env f1 := by
      rw [readUpToEnd]
      split
      · rename_i h2; rw [h1] at h2; cases h2
      · rename_i h2; rw [h1] at h2; cases h2
      · rename_i h2; rw [h1] at h2; cases h2; rfl
    rw [hunf, hend]
    by_cases hc : closes w = true
    · left
      refine ⟨f1, ws, by rw [if_pos hc], hK1, hw1, fun u hu => List.mem_cons_of_mem _ hu, by simp, ?_, ?_⟩
      · rw [outside, hc]; rfl
      · rw [leftOpen, hc]; rfl
    · rw [if_neg hc]
      have hcf : closes w = false := by simpa using hc
      rcases ih f1 hK1 (sub_short hin hS) (sub_safe hin hJ) hw1 with ⟨f', us, a1, a2, a3, a4, a5, a6, a7⟩ | ⟨a1, a2, a3⟩
      · left
        refine ⟨f', us, a1, a2, a3, fun u hu => List.mem_cons_of_mem _ (a4 u hu), by simp; omega, ?_, ?_⟩
        · rw [outside, hcf]; exact a6
        · rw [leftOpen, hcf]; exact a7
      · right
        refine ⟨a1, ?_, ?_⟩
        · rw [outside, hcf]; exact a2
        · rw [leftOpen, hcf]; exact a3

/-- the next token outside comments -/
theorem next_tok (env : Env) (b : Bool) (n : Nat) : ∀ f ws, K b f → Short f.rest → Safe env f.rest → words f.rest = ws → ws.length ≤ n →
    (∀ w rs, outside false ws = w :: rs → ∃ f', readTok env f = .ok (some w, f') ∧ K b f' ∧ (∀ w ∈ words f'.rest, w ∈ ws)
      ∧ outside false (words f'.rest) = rs ∧ leftOpen false (words f'.rest) = leftOpen false ws) ∧
    (outside false ws = [] → readTok env f = if b = true ∧ leftOpen false ws = false then .ok (none, ⟨[], true⟩) else .error .crash) := by
  induction n with
  | zero =>
    intro f ws hK hS hJ h hn
    have : ws = [] := List.length_eq_zero_iff.1 (by omega)
    subst this
    refine ⟨fun w rs h' => (by cases h'), fun _ => ?_⟩
    have hn := next_none b f hK h
    rw [readTok]
    cases b
    · have := hn.2 rfl
      split
      · rename_i e h1; rw [this] at h1; cases h1; rfl
      · rename_i h1; rw [this] at h1; cases h1
      · rename_i h1; rw [this] at h1; cases h1
    · have := hn.1 rfl
      split
      · rename_i e h1; rw [this] at h1; cases h1
      · rename_i h1; rw [this] at h1; cases h1; rfl
      · rename_i h1; rw [this] at h1; cases h1
  | succ n ih =>
    intro f ws hK hS hJ h hn
    cases ws with
    | nil =>
      refine ⟨fun w rs h' => (by cases h'), fun _ => ?_⟩
      have hn := next_none b f hK h
      rw [readTok]
      cases b
      · have := hn.2 rfl
        split
        · rename_i e h1; rw [this] at h1; cases h1; rfl
        · rename_i h1; rw [this] at h1; cases h1
        · rename_i h1; rw [this] at h1; cases h1
      · have := hn.1 rfl
        split
        · rename_i e h1; rw [this] at h1; cases h1
        · rename_i h1; rw [this] at h1; cases h1; rfl
        · rename_i h1; rw [this] at h1; cases h1
    | cons w ws =>
      obtain ⟨f1, h1, hK1, hw1⟩ := next_word b f hK hS w ws h
      have hin : ∀ u ∈ words f1.rest, u ∈ words f.rest := by rw [hw1, h]; intro u hu; exact List.mem_cons_of_mem _ hu
      have hne : w ≠ [] := words_ne_nil f.rest w (by rw [h]; simp)
      have hend := ends_eq env w hne (fun hj hw => hJ hj (by rw [h, hw]; simp))
      have hunf : readTok env f = if startsComment w then (if endsComment env w then readTok env f1 else
          match readUpToEnd env f1 with
          | .error e => .error e
          | .ok f'' => readTok env f'') else .ok (some w, f1) := by
        rw [readTok]
        split
        · rename_i h2; rw [h1] at h2; cases h2
        · rename_i h2; rw [h1] at h2; cases h2
        · rename_i w2 f2 h2
          rw [h1] at h2; cases h2
          simp only
          split
          · split
            · rfl
            · split
              · rename_i e h3; rw [h3]
              · rename_i f3 h3; rw [h3]
          · rfl
      rw [hunf, starts_eq, hend]
      by_cases ho : opens w = true
      · rw [if_pos ho]
        by_cases hc : closes w = true
        · rw [if_pos hc]
          have hi := ih f1 ws hK1 (sub_short hin hS) (sub_safe hin hJ) hw1 (by simp at hn; omega)
          have e1 : outside false (w :: ws) = outside false ws := by rw [outside, if_pos ho, hc]; rfl
          have e2 : leftOpen false (w :: ws) = leftOpen false ws := by rw [leftOpen, if_pos ho, hc]; rfl
          rw [e1, e2]
          refine ⟨fun u rs hu => ?_, hi.2⟩
          obtain ⟨f', b1, b2, b3, b4, b5⟩ := hi.1 u rs hu
          exact ⟨f', b1, b2, fun w' hw' => List.mem_cons_of_mem _ (b3 w' hw'), b4, b5⟩
        · rw [if_neg hc]
          have hcf : closes w = false := by simpa using hc
          have e1 : outside false (w :: ws) = outside true ws := by rw [outside, if_pos ho, hcf]; rfl
          have e2 : leftOpen false (w :: ws) = leftOpen true ws := by rw [leftOpen, if_pos ho, hcf]; rfl
          rw [e1, e2]
          rcases end_comment env b ws f1 hK1 (sub_short hin hS) (sub_safe hin hJ) hw1 with ⟨f', us, a1, a2, a3, a4, a5, a6, a7⟩ | ⟨a1, a2, a3⟩
          · rw [a1, a6, a7]
            have hin' : ∀ u ∈ words f'.rest, u ∈ words f.rest := by rw [a3, h]; intro u hu; exact List.mem_cons_of_mem _ (a4 u hu)
            have hi := ih f' us a2 (sub_short hin' hS) (sub_safe hin' hJ) a3 (by simp at hn; omega)
            refine ⟨fun u rs hu => ?_, hi.2⟩
            obtain ⟨f'', b1, b2, b3, b4, b5⟩ := hi.1 u rs hu
            exact ⟨f'', b1, b2, fun w' hw' => List.mem_cons_of_mem _ (a4 _ (b3 w' hw')), b4, b5⟩
          · rw [a1, a2, a3]
            refine ⟨fun u rs hu => (by cases hu), fun _ => ?_⟩
            simp
      · rw [if_neg ho]
        have e1 : outside false (w :: ws) = w :: outside false ws := by rw [outside, if_neg ho]
        have e2 : leftOpen false (w :: ws) = leftOpen false ws := by rw [leftOpen, if_neg ho]
        rw [e1, e2]
        refine ⟨fun u rs hu => ?_, fun hu => by cases hu⟩
        injection hu with hu1 hu2
        subst hu1
        exact ⟨f1, rfl, hK1, by rw [hw1]; intro u hu; exact List.mem_cons_of_mem _ hu, by rw [hw1]; exact hu2, by rw [hw1]⟩

/-! ### State of a reading program -/

/-- the file `f` still has to give the words `rs`; `lo`: a comment is left open after them; `b`: the text ends with a blank -/
structure At (env : Env) (b lo : Bool) (rs : List Str) (f : Inp) : Prop where
  k : K b f
  short : Short f.rest
  safe : Safe env f.rest
  out : outside false (words f.rest) = rs
  lo_eq : leftOpen false (words f.rest) = lo

theorem at_open (env : Env) (s : Str) (hs : Short s) (hj : Safe env s) :
    At env (endsBlank s) (leftOpen false (words s)) (contents s) (openText s) := ⟨K_open s, hs, hj, rfl, rfl⟩

theorem at_tok {env : Env} {b lo : Bool} {w : Str} {rs : List Str} {f : Inp} (h : At env b lo (w :: rs) f) :
    ∃ f', readTok env f = .ok (some w, f') ∧ At env b lo rs f' := by
  obtain ⟨f', h1, h2, h3, h4, h5⟩ := (next_tok env b _ f _ h.k h.short h.safe rfl (le_refl _)).1 w rs h.out
  exact ⟨f', h1, h2, sub_short h3 h.short, sub_safe h3 h.safe, h4, h5.trans h.lo_eq⟩

theorem at_end {env : Env} {b lo : Bool} {f : Inp} (h : At env b lo [] f) :
    readTok env f = if b = true ∧ lo = false then .ok (none, ⟨[], true⟩) else .error .crash := by
  rw [(next_tok env b _ f _ h.k h.short h.safe rfl (le_refl _)).2 h.out, h.lo_eq]

theorem at_val {α : Type} {env : Env} {b lo : Bool} {w : Str} {rs : List Str} {f : Inp} (h : At env b lo (w :: rs) f) (fmt : Str → Scan α) (old : α) :
    ∃ f', At env b lo rs f' ∧ readVarCatcherr env fmt f = (match fmt w with | .val a => .ok ((1, some a), f') | .noMatch => .ok ((0, none), f') | .bad e => .error e) ∧
      readVar env fmt old f = (match fmt w with | .val a => .ok (a, f') | .noMatch => .error .crash | .bad e => .error e) := by
  obtain ⟨f', h1, h2⟩ := at_tok h
  refine ⟨f', h2, ?_, ?_⟩
  · unfold readVarCatcherr; rw [h1]; simp only; cases hh : fmt w <;> rfl
  · unfold readVar readVarCatcherr; rw [h1]; simp only; cases hh : fmt w <;> rfl

theorem at_val_end {α : Type} {env : Env} {b lo : Bool} {f : Inp} (h : At env b lo [] f) (fmt : Str → Scan α) (old : α) :
    readVar env fmt old f = if b = true ∧ lo = false then .ok (old, ⟨[], true⟩) else .error .crash := by
  unfold readVar readVarCatcherr
  rw [at_end h]
  split_ifs <;> rfl

theorem out_words_short {env : Env} {b lo : Bool} {rs : List Str} {f : Inp} (h : At env b lo rs f) : ∀ w ∈ rs, w.length + 1 ≤ 1024 := by
  have key : ∀ (ws : List Str) (c : Bool), ∀ w ∈ outside c ws, w ∈ ws := by
    intro ws
    induction ws with
    | nil => intro c w hw; cases c <;> simp [outside] at hw
    | cons x ws ih =>
      intro c w hw
      cases c
      · rw [outside] at hw
        split at hw
        · exact List.mem_cons_of_mem _ (ih _ w hw)
        · rcases List.mem_cons.1 hw with h' | h'
          · rw [h']; simp
          · exact List.mem_cons_of_mem _ (ih _ w h')
      · rw [outside] at hw; exact List.mem_cons_of_mem _ (ih _ w hw)
  intro w hw
  rw [← h.out] at hw
  exact h.short w (key _ _ w hw)

/-! ### C71 -/

/-- reading words: whatever the layout and the comments, they come in the order of the file -/
theorem read_words {env : Env} {b lo : Bool} (n : Nat) : ∀ (rs : List Str) (f : Inp), At env b lo rs f → n ≤ rs.length →
    ∃ f', readWords env n f = .ok (rs.take n, f') ∧ At env b lo (rs.drop n) f' := by
  induction n with
  | zero => intro rs f h _; exact ⟨f, rfl, h⟩
  | succ n ih =>
    intro rs f h hn
    cases rs with
    | nil => simp at hn
    | cons w rs =>
      obtain ⟨f1, h1, -, h3⟩ := at_val h (fmtS 1024) env.junk
      have hw := out_words_short h w (by simp)
      have hf : fmtS 1024 w = .val w := by unfold fmtS; rw [if_pos hw]
      rw [hf] at h3
      obtain ⟨f2, h4, h5⟩ := ih rs f1 h1 (by simpa using hn)
      refine ⟨f2, ?_, h5⟩
      unfold readWords at h4 ⊢
      rw [readEntries, h3]
      simp only
      rw [h4]
      rfl

/-- **C71 (words)**: any number of successive readings of words gives the words of the file which are outside comments, in order: they do not depend
on how the text is laid out in lines and blanks, nor on the comments, as long as no word has 1024 characters -/
theorem C71_words (env : Env) (s : Str) (hs : Short s) (hj : Safe env s) (n : Nat) (hn : n ≤ (contents s).length) :
    ∃ f', readWords env n (openText s) = .ok ((contents s).take n, f') := by
  obtain ⟨f', h, _⟩ := read_words n _ _ (at_open env s hs hj) hn
  exact ⟨f', h⟩

/-- two texts with the same words outside comments are read in the same way -/
theorem C71_layout (env : Env) (s s' : Str) (hs : Short s) (hs' : Short s') (hj : Safe env s) (hj' : Safe env s') (h : contents s = contents s') (n : Nat)
    (hn : n ≤ (contents s).length) :
    ∃ f f', readWords env n (openText s) = .ok ((contents s).take n, f) ∧ readWords env n (openText s') = .ok ((contents s).take n, f') := by
  obtain ⟨f, h1⟩ := C71_words env s hs hj n hn
  obtain ⟨f', h2⟩ := C71_words env s' hs' hj' n (by rw [← h]; exact hn)
  exact ⟨f, f', h1, by rw [h]; exact h2⟩

/-- what a list of tags and values should give, on words: every tag must be there, every value must be understood -/
def ParsOk {α : Type} (fmt : Str → Scan α) : List Str → List (Str × α) → List α → Prop
  | _, [], vs => vs = []
  | t :: v :: ws, (tag, _) :: l, x :: vs => sameCase tag t = true ∧ fmt v = .val x ∧ ParsOk fmt ws l vs
  | _, _ :: _, _ => False

theorem read_pars {α : Type} {env : Env} {b lo : Bool} (fmt : Str → Scan α) (l : List (Str × α)) : ∀ (rs : List Str) (f : Inp), At env b lo rs f →
    2 * l.length ≤ rs.length → ∀ vs, (∃ f', readPars env fmt l f = .ok (vs, f')) ↔ ParsOk fmt rs l vs := by
  induction l with
  | nil =>
    intro rs f h _ vs
    rw [readPars]
    constructor
    · rintro ⟨f', hf⟩; cases hf; cases rs <;> rfl
    · intro hp
      have : vs = [] := by cases rs <;> exact hp
      exact ⟨f, by rw [this]⟩
  | cons tv l ih =>
    intro rs f h hn vs
    obtain ⟨tag, old⟩ := tv
    match rs, h, hn with
    | [], _, hn => simp at hn
    | [_], _, hn => simp at hn; omega
    | t :: v :: rs, h, hn =>
      obtain ⟨f1, h1, -, h3⟩ := at_val h (fmtS 1024) env.junk
      have hf : fmtS 1024 t = .val t := by unfold fmtS; rw [if_pos (out_words_short h t (by simp))]
      rw [hf] at h3
      obtain ⟨f2, g1, -, g3⟩ := at_val h1 fmt old
      have hi := ih rs f2 g1 (by simp at hn; omega)
      rw [readPars]
      have hstr : readStr env 1024 env.junk f = .ok (t, f1) := h3
      unfold readStrVar expectStr
      rw [hstr]
      simp only
      by_cases hc : sameCase tag t = true
      · rw [if_pos hc]
        simp only
        rw [g3]
        cases hv : fmt v with
        | noMatch =>
          simp only
          constructor
          · rintro ⟨f', hf'⟩; cases hf'
          · intro hp; cases vs with
            | nil => exact hp.elim
            | cons x vs => obtain ⟨_, hp, _⟩ := hp; rw [hv] at hp; cases hp
        | bad e =>
          simp only
          constructor
          · rintro ⟨f', hf'⟩; cases hf'
          · intro hp; cases vs with
            | nil => exact hp.elim
            | cons x vs => obtain ⟨_, hp, _⟩ := hp; rw [hv] at hp; cases hp
        | val a =>
          simp only
          constructor
          · rintro ⟨f', hf'⟩
            split at hf'
            · cases hf'
            · rename_i vs' f3 h4
              cases hf'
              exact ⟨hc, hv, (hi vs').1 ⟨f', h4⟩⟩
          · intro hp
            cases vs with
            | nil => exact hp.elim
            | cons x vs =>
              obtain ⟨_, hp1, hp2⟩ := hp
              rw [hv] at hp1
              injection hp1 with hp1
              subst hp1
              obtain ⟨f', h4⟩ := (hi vs).2 hp2
              exact ⟨f', by rw [h4]⟩
      · rw [if_neg hc]
        simp only
        constructor
        · rintro ⟨f', hf'⟩; cases hf'
        · intro hp; cases vs with
          | nil => exact hp.elim
          | cons x vs => exact absurd hp.1 hc

/-- **C71 (tags)**: a program reading its parameters, each after its tag, from a file with enough words, goes on with the values `vs` exactly when
the words of the file are, in order, the tags (up to the case) each followed by a word understood as the value; otherwise it stops -/
theorem C71_tags_partial {α : Type} (env : Env) (fmt : Str → Scan α) (s : Str) (hs : Short s) (hj : Safe env s) (l : List (Str × α))
    (hn : 2 * l.length ≤ (contents s).length) (vs : List α) :
    (∃ f', readPars env fmt l (openText s) = .ok (vs, f')) ↔ ParsOk fmt (contents s) l vs :=
  read_pars fmt l _ _ (at_open env s hs hj) hn vs

/-- **C71 (missing value, violated)**: when the words end before the last value and the file ends with a blank (as it is after a complete last line),
the program does not stop: the variable keeps what it had -/
theorem C71_violated_missing_value {α : Type} (env : Env) (fmt : Str → Scan α) (s : Str) (hs : Short s) (hj : Safe env s) (tag t : Str) (old : α)
    (hc : contents s = [t]) (ht : sameCase tag t = true) (hb : endsBlank s = true) (hlo : leftOpen false (words s) = false) :
    readPars env fmt [(tag, old)] (openText s) = .ok ([old], ⟨[], true⟩) := by
  have h := at_open env s hs hj
  rw [hc, hb, hlo] at h
  obtain ⟨f1, h1, -, h3⟩ := at_val h (fmtS 1024) env.junk
  have hf : fmtS 1024 t = .val t := by unfold fmtS; rw [if_pos (out_words_short h t (by simp))]
  rw [hf] at h3
  have hstr : readStr env 1024 env.junk (openText s) = .ok (t, f1) := h3
  have he := at_val_end h1 fmt old
  rw [if_pos ⟨rfl, rfl⟩] at he
  rw [readPars]
  unfold readStrVar expectStr
  rw [hstr]
  simp only
  rw [if_pos ht]
  simp only
  rw [he]
  rfl

/-- **C71 (missing value)**: the same file without the final blank stops the program -/
theorem C71_missing_value_crash {α : Type} (env : Env) (fmt : Str → Scan α) (s : Str) (hs : Short s) (hj : Safe env s) (tag t : Str) (old : α)
    (hc : contents s = [t]) (hb : endsBlank s = false ∨ leftOpen false (words s) = true) :
    readPars env fmt [(tag, old)] (openText s) = .error .crash := by
  have h := at_open env s hs hj
  rw [hc] at h
  obtain ⟨f1, h1, -, h3⟩ := at_val h (fmtS 1024) env.junk
  have hf : fmtS 1024 t = .val t := by unfold fmtS; rw [if_pos (out_words_short h t (by simp))]
  rw [hf] at h3
  have hstr : readStr env 1024 env.junk (openText s) = .ok (t, f1) := h3
  have he := at_val_end h1 fmt old
  rw [if_neg (by rintro ⟨h1, h2⟩; rcases hb with hb | hb
                 · rw [hb] at h1; cases h1
                 · rw [hb] at h2; cases h2)] at he
  rw [readPars]
  unfold readStrVar expectStr
  rw [hstr]
  simp only
  by_cases ht : sameCase tag t = true
  · rw [if_pos ht]; simp only; rw [he]
  · rw [if_neg ht]

end Nissa.Inp
