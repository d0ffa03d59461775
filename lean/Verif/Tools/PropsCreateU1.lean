import Verif.Tools.CreateU1
import Mathlib.Data.Nat.Digits.Lemmas

/-! # C95: the tool create_U1 -/

set_option linter.all false

namespace Nissa.CrU1
open Nissa.Lx Nissa.Sten Nissa.Su3f Nissa.Gauge Matrix
open Nissa.Text (Str printInt)

/-! ### the names -/

theorem printInt_digits (i : Nat) : printInt i = (Nissa.Text.digits 8 i).map Nissa.Text.digitCode := by
  unfold printInt
  rw [if_neg (by omega), Int.natAbs_natCast, Nissa.Text.print_eq]

theorem printInt_ne_nil (i : Nat) : printInt i ≠ [] := by
  rw [printInt_digits]; simpa using Nissa.Text.digits_ne_nil 8 i

theorem printInt_mem (i : Nat) : ∀ c ∈ printInt i, 48 ≤ c ∧ c ≤ 57 := by
  intro c hc
  rw [printInt_digits] at hc
  obtain ⟨d, hd, rfl⟩ := List.mem_map.1 hc
  have := Nissa.Text.digits_lt 8 i d hd
  unfold Nissa.Text.digitCode
  rw [if_pos (by omega)]; omega

/-- value of a padded number -/
def val (s : Str) : Nat := (s.filter fun c => decide (c ≠ 32)).foldl (fun a c => a * 10 + (c - 48)) 0

theorem val_pad (z : Bool) (w i : Nat) : val (pad z w (printInt i)) = i := by
  have h1 : ∀ s : Str, (∀ c ∈ s, 48 ≤ c ∧ c ≤ 57) → s.filter (fun c => decide (c ≠ 32)) = s := by
    intro s hs
    rw [List.filter_eq_self]
    intro c hc
    have := hs c hc
    simp; omega
  have h2 : ∀ (l : List Nat) (a : Nat), (∀ d ∈ l, d < 10) → (l.map Nissa.Text.digitCode).foldl (fun a c => a * 10 + (c - 48)) a = l.foldl (fun a d => a * 10 + d) a := by
    intro l
    induction l with
    | nil => intro a _; rfl
    | cons d l ih =>
      intro a h
      have hd := h d (by simp)
      simp only [List.map_cons, List.foldl_cons]
      rw [ih _ (fun x hx => h x (by simp [hx]))]
      unfold Nissa.Text.digitCode
      rw [if_pos hd]
      congr 2
      omega
  have h3 : ∀ (k a : Nat), (List.replicate k 48).foldl (fun a c => a * 10 + (c - 48)) 0 = 0 := by
    intro k a
    induction k with
    | zero => rfl
    | succ k ih => rw [List.replicate_succ, List.foldl_cons]; simpa using ih
  have h4 : ∀ s : Str, (∀ c ∈ s, 48 ≤ c ∧ c ≤ 57) → ∀ k, val (List.replicate k (if z then 48 else 32) ++ s) = s.foldl (fun a c => a * 10 + (c - 48)) 0 := by
    intro s hs k
    unfold val
    rw [List.filter_append, h1 s hs, List.foldl_append]
    congr 1
    cases z
    · simp
    · simp only [if_true]
      rw [List.filter_replicate]
      simp only [ne_eq, Nat.reduceEqDiff, not_false_eq_true, decide_true, if_true]
      exact h3 k 0
  unfold pad
  rw [h4 _ (printInt_mem i), printInt_digits, h2 _ _ (fun d hd => Nissa.Text.digits_lt 8 i d hd)]
  exact Nissa.Text.value_digits 8 i

theorem fmt_inj (l : Str) (s : St) (i j : Nat) (h0 : fmt l s none = none) (a : Str) (hi : fmt l s (some i) = some a) (hj : fmt l s (some j) = some a) : i = j := by
  induction l generalizing s a with
  | nil => cases s <;> simp [fmt] at h0 hi
  | cons c l ih =>
    cases s with
    | plain =>
      rw [fmt] at h0 hi hj
      split at hi
      · rename_i h
        rw [if_pos h] at h0 hj
        exact ih _ h0 _ hi hj
      · rename_i h
        rw [if_neg h] at h0 hj
        obtain ⟨b, hb, rfl⟩ := Option.map_eq_some_iff.1 hi
        obtain ⟨b', hb', e⟩ := Option.map_eq_some_iff.1 hj
        obtain rfl : b' = b := (List.cons.inj e).2
        exact ih _ (by simpa using h0) _ hb hb'
    | conv z w =>
      rw [fmt] at h0 hi hj
      by_cases h : c = 37
      · rw [if_pos h] at h0 hi hj
        by_cases h' : z = false ∧ w = 0
        · rw [if_pos h'] at h0 hi hj
          obtain ⟨b, hb, rfl⟩ := Option.map_eq_some_iff.1 hi
          obtain ⟨b', hb', e⟩ := Option.map_eq_some_iff.1 hj
          obtain rfl : b' = b := (List.cons.inj e).2
          exact ih _ (by simpa using h0) _ hb hb'
        · rw [if_neg h'] at hi; cases hi
      rw [if_neg h] at h0 hi hj
      by_cases h2 : c = 100
      · rw [if_pos h2] at hi hj
        simp only [Option.bind_some] at hi hj
        obtain ⟨b, hb, rfl⟩ := Option.map_eq_some_iff.1 hi
        obtain ⟨b', hb', e⟩ := Option.map_eq_some_iff.1 hj
        rw [hb] at hb'; cases hb'
        have := congrArg val (List.append_cancel_right e)
        rw [val_pad, val_pad] at this
        exact this.symm
      rw [if_neg h2] at h0 hi hj
      by_cases h3 : c = 48 ∧ w = 0
      · rw [if_pos h3] at h0 hi hj; exact ih _ h0 _ hi hj
      rw [if_neg h3] at h0 hi hj
      by_cases h4 : 48 ≤ c ∧ c ≤ 57
      · rw [if_pos h4] at h0 hi hj; exact ih _ h0 _ hi hj
      · rw [if_neg h4] at hi; cases hi

theorem fmt_isSome (l : Str) (s : St) (i j : Nat) : (fmt l s (some i)).isSome = (fmt l s (some j)).isSome := by
  induction l generalizing s with
  | nil => cases s <;> rfl
  | cons c l ih =>
    cases s with
    | plain =>
      simp only [fmt]
      split
      · exact ih _
      · simpa using ih _
    | conv z w =>
      simp only [fmt]
      split
      · split
        · simpa using ih _
        · rfl
      split
      · simp
      split
      · exact ih _
      split
      · exact ih _
      · rfl

/-- C95: with a pattern that has an integer conversion, and names that fit in the buffer, the names of the files are all different -/
theorem C95_names_distinct (p : Str) (hp : HasNumber p) (i j : Nat) (a : Str) (hi : outPath p i = some a) (hj : outPath p j = some a)
    (hl : ∀ k ∈ [i, j], ∀ b, fmt p .plain (some k) = some b → b.length ≤ 127) : i = j := by
  obtain ⟨b, hb, rfl⟩ := Option.map_eq_some_iff.1 hi
  obtain ⟨b', hb', e⟩ := Option.map_eq_some_iff.1 hj
  rw [List.take_of_length_le (hl i (by simp) b hb), List.take_of_length_le (hl j (by simp) b' hb')] at e
  subst e
  exact fmt_inj p .plain i j hp.1 b' hb hb'

theorem lower_37 {c : Nat} : lower c = 37 ↔ c = 37 := by unfold lower; split <;> omega

/-- inside of a conversion that is not `%%`, what comes out first is not a `%` -/
theorem conv_first (l : Str) (z : Bool) (w : Nat) (a : Option Nat) (r : Str) (hd : l.head? = some 37 → ¬ (z = false ∧ w = 0)) (h : fmt l (.conv z w) a = some r) :
    ∃ c r', r = c :: r' ∧ c ≠ 37 := by
  induction l generalizing z w with
  | nil => simp [fmt] at h
  | cons c l ih =>
    rw [fmt] at h
    by_cases h1 : c = 37
    · rw [if_pos h1, if_neg (hd (by simp [h1]))] at h; cases h
    rw [if_neg h1] at h
    by_cases h2 : c = 100
    · rw [if_pos h2] at h
      obtain ⟨i, -, hi⟩ := Option.bind_eq_some_iff.1 h
      obtain ⟨b, -, rfl⟩ := Option.map_eq_some_iff.1 hi
      unfold pad
      rcases Nat.eq_zero_or_pos (w - (printInt (i : Int)).length) with h0 | h0
      · rw [h0, List.replicate_zero, List.nil_append]
        rcases hq : printInt (i : Int) with _ | ⟨d, q⟩
        · exact absurd hq (printInt_ne_nil i)
        · refine ⟨d, q ++ b, rfl, ?_⟩
          have := printInt_mem i d (by rw [hq]; simp)
          omega
      · obtain ⟨k, hk⟩ := Nat.exists_eq_succ_of_ne_zero (Nat.pos_iff_ne_zero.1 h0)
        rw [hk, List.replicate_succ]
        refine ⟨_, _, rfl, ?_⟩
        cases z <;> simp
    rw [if_neg h2] at h
    by_cases h3 : c = 48 ∧ w = 0
    · rw [if_pos h3] at h; exact ih _ _ (fun _ hh => by simp at hh) h
    rw [if_neg h3] at h
    by_cases h4 : 48 ≤ c ∧ c ≤ 57
    · rw [if_pos h4] at h
      refine ih _ _ (fun _ hh => ?_) h
      omega
    · rw [if_neg h4] at h; cases h

theorem fmt_fixed : ∀ (n : Nat) (l : Str), l.length ≤ n → ∀ (k : Nat) (a : Option Nat) (r : Str), fmt l .plain a = some r →
    r.map lower = List.replicate k 37 ++ l.map lower → k = 0 ∧ 37 ∉ l ∧ r = l := by
  intro n
  induction n with
  | zero =>
    intro l hl k a r h e
    obtain rfl : l = [] := List.length_eq_zero_iff.1 (by omega)
    simp only [fmt, Option.some.injEq] at h
    subst h
    cases k with
    | zero => simp
    | succ k => simp [List.replicate_succ] at e
  | succ n ih =>
    intro l hl k a r h e
    rcases l with _ | ⟨c, l⟩
    · simp only [fmt, Option.some.injEq] at h
      subst h
      cases k with
      | zero => simp
      | succ k => simp [List.replicate_succ] at e
    rw [fmt] at h
    by_cases hc : c = 37
    · subst hc
      rw [if_pos rfl] at h
      -- what comes out begins with a `%`
      have hh : ∀ c r', r = c :: r' → c = 37 := by
        rintro c' r' rfl
        cases k with
        | zero => simp only [List.replicate_zero, List.nil_append, List.map_cons] at e; exact lower_37.1 (by rw [(List.cons.inj e).1]; rfl)
        | succ k => simp only [List.replicate_succ, List.cons_append, List.map_cons] at e; exact lower_37.1 (List.cons.inj e).1
      by_cases hd : l.head? = some 37
      · rcases l with _ | ⟨c', l⟩
        · simp at hd
        simp only [List.head?_cons, Option.some.injEq] at hd
        subst hd
        rw [fmt, if_pos rfl, if_pos ⟨rfl, rfl⟩] at h
        obtain ⟨b, hb, rfl⟩ := Option.map_eq_some_iff.1 h
        have e' : b.map lower = List.replicate (k + 1) 37 ++ l.map lower := by
          have l37 : lower 37 = 37 := rfl
          simp only [List.map_cons, l37] at e
          have : List.replicate k 37 ++ 37 :: 37 :: l.map lower = 37 :: (List.replicate (k + 1) 37 ++ l.map lower) := by
            rw [← List.cons_append, ← List.replicate_succ, List.replicate_succ', List.replicate_succ']
            simp
          rw [this] at e
          exact (List.cons.inj e).2
        have := ih l (by simp at hl; omega) (k + 1) a b hb e'
        omega
      · obtain ⟨c', r', rfl, hne⟩ := conv_first l false 0 a r (fun hh' => absurd hh' hd) h
        exact absurd (hh c' r' rfl) hne
    · rw [if_neg hc] at h
      obtain ⟨b, hb, rfl⟩ := Option.map_eq_some_iff.1 h
      cases k with
      | zero =>
        simp only [List.replicate_zero, List.nil_append, List.map_cons] at e
        obtain ⟨-, q1, q2⟩ := ih l (by simp at hl; omega) 0 a b hb (by simpa using (List.cons.inj e).2)
        exact ⟨rfl, by simp [Ne.symm hc, q1], by rw [q2]⟩
      | succ k =>
        simp only [List.replicate_succ, List.cons_append, List.map_cons] at e
        exact absurd (lower_37.1 (List.cons.inj e).1) hc

theorem fmt_plain_text (l : Str) (a : Option Nat) (h : 37 ∉ l) : fmt l .plain a = some l := by
  induction l with
  | nil => rfl
  | cons c l ih =>
    simp only [List.mem_cons, not_or] at h
    rw [fmt, if_neg (Ne.symm h.1), ih h.2]; rfl

/-- C95: if the name fits in the buffer, the check refuses exactly the patterns without any `%` -/
theorem C95_refused_iff (p : Str) (i : Nat) (b : Str) (h : fmt p .plain (some i) = some b) (hl : b.length ≤ 127) :
    (∃ a, outPath p i = some a ∧ sameNoCase a p = true) ↔ 37 ∉ p := by
  have hp : outPath p i = some b := by unfold outPath; rw [h, Option.map_some, List.take_of_length_le hl]
  constructor
  · rintro ⟨a, ha, e⟩
    rw [hp] at ha; cases ha
    unfold sameNoCase at e
    rw [beq_iff_eq, List.take_of_length_le (by omega)] at e
    have hlen := congrArg List.length e
    simp only [List.length_map, List.length_take] at hlen
    rw [List.take_of_length_le (by omega)] at e
    exact (fmt_fixed p.length p le_rfl 0 (some i) b h (by simpa using e)).2.1
  · intro hn
    rw [fmt_plain_text p _ hn] at h
    cases h
    exact ⟨p, hp, by unfold sameNoCase; simp⟩

/-- C95: with a pattern that has an integer conversion and names that fit in the buffer, the program writes each configuration in its own file, which at the
end has its field; no other file is touched. Missing for the full statement: patterns without an integer conversion, or names longer than the buffer (violated below) -/
theorem C95_files_partial {F : Type} (p : Str) (hp : HasNumber p) (n : Nat) (hl : ∀ i, i < n → ∀ b, fmt p .plain (some i) = some b → b.length ≤ 127) (field : Nat → F) (files : Str → Option F) :
    ∃ (out : Str → Option F) (name : Nat → Str), loop p field n 0 files = .done out ∧ (∀ i, i < n → outPath p i = some (name i) ∧ out (name i) = some (field i)) ∧
      ∀ f, (∀ i, i < n → f ≠ name i) → out f = files f := by
  have hs : ∀ i, ∃ b, fmt p .plain (some i) = some b := fun i => Option.isSome_iff_exists.1 (by rw [fmt_isSome p .plain i 0]; exact hp.2)
  choose nm hnm using hs
  have hno : ∀ i, i < n → outPath p i = some (nm i) := fun i hi => by
    unfold outPath; rw [hnm i, Option.map_some, List.take_of_length_le (hl i hi _ (hnm i))]
  have hinj : ∀ i j, i < n → j < n → nm i = nm j → i = j := fun i j hi hj e =>
    fmt_inj p .plain i j hp.1 (nm i) (hnm i) (by rw [e]; exact hnm j)
  have h37 : 37 ∈ p := by
    by_contra hn
    have := hp.1
    rw [fmt_plain_text p none hn] at this; cases this
  have hsn : ∀ i, i < n → sameNoCase (nm i) p = false := by
    intro i hi
    by_contra h
    rw [Bool.not_eq_false] at h
    exact (C95_refused_iff p i (nm i) (hnm i) (hl i hi _ (hnm i))).1 ⟨nm i, hno i hi, h⟩ h37
  have key : ∀ m k files, k + m = n → ∃ out, loop p field m k files = .done out ∧ (∀ i, k ≤ i → i < n → out (nm i) = some (field i)) ∧
      ∀ f, (∀ i, k ≤ i → i < n → f ≠ nm i) → out f = files f := by
    intro m
    induction m with
    | zero => intro k files hk; exact ⟨files, rfl, fun i h1 h2 => by omega, fun f _ => rfl⟩
    | succ m ih =>
      intro k files hk
      obtain ⟨out, e, h1, h2⟩ := ih (k + 1) (Function.update files (nm k) (some (field k))) (by omega)
      refine ⟨out, ?_, ?_, ?_⟩
      · rw [loop, hno k (by omega)]
        simp only [hsn k (by omega), Bool.false_eq_true, if_false]
        exact e
      · intro i hi1 hi2
        rcases Nat.eq_or_lt_of_le hi1 with h | h
        · subst h
          rw [h2 _ (fun j hj1 hj2 ej => by have := hinj k j (by omega) hj2 ej; omega), Function.update_self]
        · exact h1 i h hi2
      · intro f hf
        rw [h2 f (fun i hi1 hi2 => hf i (by omega) hi2), Function.update_of_ne (hf k le_rfl (by omega))]
  obtain ⟨out, e, h1, h2⟩ := key n 0 files (by omega)
  exact ⟨out, nm, e, fun i hi => ⟨hno i hi, h1 i (by omega) hi⟩, fun f hf => h2 f (fun i _ hi => hf i hi)⟩

theorem hasNumber_conf : HasNumber [99, 111, 110, 102, 37, 48, 52, 100] := by
  constructor
  · simp [fmt]
  · simp [fmt]

/-- non vacuity: "conf%04d", for all the configurations -/
example (i : Nat) (hi : i < 10 ^ 9) : HasNumber [99, 111, 110, 102, 37, 48, 52, 100] ∧
    ∀ b, fmt [99, 111, 110, 102, 37, 48, 52, 100] .plain (some i) = some b → b.length ≤ 127 := by
  refine ⟨hasNumber_conf, fun b hb => ?_⟩
  have hf : fmt [99, 111, 110, 102, 37, 48, 52, 100] .plain (some i) = some ([99, 111, 110, 102] ++ pad true 4 (printInt i)) := by simp [fmt]
  rw [hf, Option.some.injEq] at hb
  subst hb
  have h1 := Nissa.Text.digits_length 8 i 9 (by decide) hi
  have h2 : (printInt (i : Int)).length = (Nissa.Text.digits 8 i).length := by rw [printInt_digits, List.length_map]
  simp only [pad, List.length_append, List.length_replicate, List.length_cons, List.length_nil]
  omega

theorem fmt_width (b : Str) (hb : 37 ∉ b) (i : Nat) (z : Bool) : ∀ (ds : List Nat), (∀ d ∈ ds, d < 10) → ∀ (w : Nat), (w = 0 → ds.head? ≠ some 0) →
    fmt (ds.map (· + 48) ++ 100 :: b) (.conv z w) (some i) = some (pad z (ds.foldl (fun w d => 10 * w + d) w) (printInt i) ++ b) := by
  intro ds
  induction ds with
  | nil =>
    intro _ w _
    simp only [List.map_nil, List.nil_append, fmt, List.foldl_nil]
    rw [if_neg (by omega), if_pos trivial, fmt_plain_text b none hb]
    rfl
  | cons d ds ih =>
    intro hd w hw
    have h10 : d < 10 := hd d (List.mem_cons_self ..)
    have hz : ¬ (d + 48 = 48 ∧ w = 0) := by
      rintro ⟨h1, h2⟩
      refine hw h2 ?_
      rw [List.head?_cons]
      congr 1
      omega
    simp only [List.map_cons, List.cons_append, List.foldl_cons]
    rw [fmt, if_neg (by omega), if_neg (by omega), if_neg hz, if_pos (by omega), show d + 48 - 48 = d by omega]
    refine ih (fun x hx => hd x (List.mem_cons_of_mem _ hx)) _ ?_
    intro h0 h1
    have : d = 0 ∧ w = 0 := by omega
    exact hz ⟨by omega, this.2⟩

theorem foldl_width (ds : List Nat) (w : Nat) : ds.foldl (fun w d => 10 * w + d) w = w * 10 ^ ds.length + Nat.ofDigits 10 ds.reverse := by
  induction ds generalizing w with
  | nil => simp
  | cons d ds ih =>
    rw [List.foldl_cons, ih, List.reverse_cons, Nat.ofDigits_append, List.length_reverse, List.length_cons, pow_succ]
    simp only [Nat.ofDigits_singleton]
    ring

theorem fmt_text_append (a l : Str) (ha : 37 ∉ a) (i : Option Nat) : fmt (a ++ l) .plain i = (fmt l .plain i).map (a ++ ·) := by
  induction a with
  | nil => cases h : fmt l .plain i <;> simp [h]
  | cons c a ih =>
    simp only [List.mem_cons, not_or] at ha
    rw [List.cons_append, fmt, if_neg (Ne.symm ha.1), ih ha.2, Option.map_map]
    rfl

/-- C95: for a pattern made of a text, a conversion with any width, written in decimal with or without the flag of the zeros, and a text, the name of configuration
`i` is the first text, the decimal writing of `i` after as many zeros or spaces as needed to reach the width, and the second text, cut at 127 characters -/
theorem C95_name (a b ds : Str) (z : Bool) (ha : 37 ∉ a) (hb : 37 ∉ b) (hd : ∀ d ∈ ds, d < 10) (h0 : ds.head? ≠ some 0) (i : Nat) :
    outPath (a ++ [37] ++ (if z then [48] else []) ++ ds.map (· + 48) ++ [100] ++ b) i =
      some ((a ++ List.replicate (Nat.ofDigits 10 ds.reverse - (printInt i).length) (if z then 48 else 32) ++ printInt i ++ b).take 127) := by
  have e : a ++ [37] ++ (if z then [48] else []) ++ ds.map (· + 48) ++ [100] ++ b =
      a ++ (37 :: ((if z then [48] else []) ++ (ds.map (· + 48) ++ 100 :: b))) := by simp
  have h : fmt (37 :: ((if z then [48] else []) ++ (ds.map (· + 48) ++ 100 :: b))) .plain (some i) =
      some (pad z (Nat.ofDigits 10 ds.reverse) (printInt i) ++ b) := by
    have hw : ds.foldl (fun w d => 10 * w + d) 0 = Nat.ofDigits 10 ds.reverse := by rw [foldl_width]; simp
    rw [fmt, if_pos rfl]
    cases z with
    | false =>
      rw [if_neg Bool.false_ne_true, List.nil_append, fmt_width b hb i false ds hd 0 (fun _ => h0), hw]
    | true =>
      rw [if_pos rfl, List.singleton_append, fmt, if_neg (by omega), if_neg (by omega), if_pos ⟨rfl, rfl⟩, fmt_width b hb i true ds hd 0 (fun _ => h0), hw]
  unfold outPath
  rw [e, fmt_text_append a _ ha, h]
  simp [pad]

/-- non vacuity: "a%012d" for configuration 345 -/
example : outPath [97, 37, 48, 49, 50, 100] 345 = some ([97] ++ List.replicate 9 48 ++ [51, 52, 53]) := by
  have h := C95_name [97] [] [1, 2] true (by decide) (by decide) (by decide) (by decide) 345
  have hp : printInt ((345 : Nat) : Int) = [51, 52, 53] := by rw [printInt_digits]; simp [Nissa.Text.digits]; decide
  rw [hp] at h
  simpa [Nat.ofDigits, List.replicate] using h

/-- C95, violated: the pattern "a%%" is accepted, and all the configurations are written in the same file: only the last one is left -/
theorem C95_violated_percent {F : Type} (field : Nat → F) (files : Str → Option F) (n : Nat) :
    loop [97, 37, 37] field (n + 1) 0 files = .done (Function.update files [97, 37] (some (field n))) := by
  have h : ∀ i, outPath [97, 37, 37] i = some [97, 37] := fun i => rfl
  have key : ∀ m k (files : Str → Option F), loop [97, 37, 37] field (m + 1) k files = .done (Function.update files [97, 37] (some (field (k + m)))) := by
    intro m
    induction m with
    | zero =>
      intro k files
      rw [loop, h k]
      rfl
    | succ m ih =>
      intro k files
      rw [loop, h k]
      simp only [show sameNoCase [97, 37] [97, 37, 37] = false from rfl, Bool.false_eq_true, if_false]
      rw [ih, Function.update_idem, show k + 1 + m = k + (m + 1) by omega]
  simpa using key n 0 files

/-- C95, violated: a text of at least 128 characters, without any conversion, is accepted, and all the configurations are written in the same file -/
theorem C95_violated_long {F : Type} (p : Str) (hp : 37 ∉ p) (hl : 128 ≤ p.length) (field : Nat → F) (files : Str → Option F) (n : Nat) :
    loop p field (n + 1) 0 files = .done (Function.update files (p.take 127) (some (field n))) := by
  have h : ∀ i, outPath p i = some (p.take 127) := fun i => by unfold outPath; rw [fmt_plain_text p _ hp]; rfl
  have hs : sameNoCase (p.take 127) p = false := by
    unfold sameNoCase
    rw [beq_eq_false_iff_ne]
    intro e
    have := congrArg List.length e
    simp only [List.length_map, List.length_take] at this
    omega
  have key : ∀ m k (files : Str → Option F), loop p field (m + 1) k files = .done (Function.update files (p.take 127) (some (field (k + m)))) := by
    intro m
    induction m with
    | zero =>
      intro k files
      rw [loop, h k]
      simp only [hs, Bool.false_eq_true, if_false]
      rfl
    | succ m ih =>
      intro k files
      rw [loop, h k]
      simp only [hs, Bool.false_eq_true, if_false]
      rw [ih, Function.update_idem, show k + 1 + m = k + (m + 1) by omega]
  simpa using key n 0 files

example : 37 ∉ List.replicate 128 97 ∧ 128 ≤ (List.replicate 128 97).length := ⟨by simp, by simp⟩

/-- C95: the field is written with the spatial directions first and the time last -/
theorem C95_written_directions {R : Type} (junk f : Dir → R) :
    permuted junk f 0 = f 1 ∧ permuted junk f 1 = f 2 ∧ permuted junk f 2 = f 3 ∧ permuted junk f 3 = f 0 := by
  refine ⟨rfl, rfl, rfl, rfl⟩

/-! ### the configurations -/

theorem u1Link_eq (e a : ℝ) : u1Link e a = Complex.exp ((e * a : ℝ) * Complex.I) • (1 : M3) := by
  ext i j
  rw [u1Link, Matrix.of_apply, Matrix.smul_apply, Matrix.one_apply, smul_eq_mul]
  split
  · rw [mul_one]
    apply Complex.ext
    · rw [Complex.exp_ofReal_mul_I_re]
    · rw [Complex.exp_ofReal_mul_I_im]
  · rw [mul_zero]

theorem phase_conj (t : ℝ) : (starRingEnd ℂ) (Complex.exp (t * Complex.I)) = Complex.exp ((-t : ℝ) * Complex.I) := by
  rw [← Complex.exp_conj, map_mul, Complex.conj_ofReal, Complex.conj_I]
  push_cast
  ring_nf

theorem square_phase (g : Geo) (e : ℝ) (A : Coords → Dir → ℝ) (U V : Coords → Quad) (h : ∀ x mu, V x mu = Complex.exp ((e * A x mu : ℝ) * Complex.I) • U x mu) (x : Coords) (mu nu : Dir) :
    square g V x mu nu = Complex.exp ((e * flux g A x mu nu : ℝ) * Complex.I) • square g U x mu nu := by
  unfold square
  rw [h, h, h, h]
  simp only [Matrix.conjTranspose_smul, Matrix.smul_mul, Matrix.mul_smul, smul_smul, Complex.star_def, phase_conj, ← Complex.exp_add]
  congr 2
  unfold flux
  push_cast
  ring

/-- the real photon field on the global lattice -/
noncomputable def realField (g : Geo) (photon : Nat → Nat → Dir → ℂ) : Coords → Dir → ℝ := fun x mu => (glob g photon x mu).re

theorem glob_u1 (g : Geo) (e : ℝ) (photon : Nat → Nat → Dir → ℂ) (x : Coords) (mu : Dir) :
    glob g (u1Conf e photon) x mu = Complex.exp ((e * realField g photon x mu : ℝ) * Complex.I) • (1 : M3) := by
  show u1Link e _ = _
  rw [u1Link_eq]; rfl

/-- C95: on every rank and site, the links of the product are those of the SU(3) configuration times the phase of the photon field -/
theorem C95_u3_link (g : Geo) (e : ℝ) (photon : Nat → Nat → Dir → ℂ) (conf : Nat → Nat → Quad) (x : Coords) (mu : Dir) :
    glob g (prodConf conf (u1Conf e photon)) x mu = Complex.exp ((e * realField g photon x mu : ℝ) * Complex.I) • glob g conf x mu := by
  show glob g conf x mu * glob g (u1Conf e photon) x mu = _
  rw [glob_u1, Matrix.mul_smul, Matrix.mul_one]

/-- C95: the product is a configuration of U(3): unitary links, the determinant being the third power of the phase -/
theorem C95_u3_unitary (g : Geo) (e : ℝ) (photon : Nat → Nat → Dir → ℂ) (conf : Nat → Nat → Quad) (x : Coords) (mu : Dir)
    (hU : (glob g conf x mu)ᴴ * glob g conf x mu = 1) (hd : (glob g conf x mu).det = 1) :
    (glob g (prodConf conf (u1Conf e photon)) x mu)ᴴ * glob g (prodConf conf (u1Conf e photon)) x mu = 1 ∧
    (glob g (prodConf conf (u1Conf e photon)) x mu).det = Complex.exp ((3 * e * realField g photon x mu : ℝ) * Complex.I) := by
  rw [C95_u3_link]
  constructor
  · rw [Matrix.conjTranspose_smul, Matrix.smul_mul, Matrix.mul_smul, smul_smul, hU, Complex.star_def, phase_conj, ← Complex.exp_add]
    rw [show ((-(e * realField g photon x mu) : ℝ) : ℂ) * Complex.I + ((e * realField g photon x mu : ℝ) : ℂ) * Complex.I = 0 by push_cast; ring, Complex.exp_zero, one_smul]
  · rw [Matrix.det_smul, hd, mul_one, Fintype.card_fin, ← Complex.exp_nat_mul]
    congr 1
    push_cast
    ring

/-- C95: each square of the product is that of the SU(3) configuration times the phase of the flux of the photon field -/
theorem C95_u3_square (g : Geo) (e : ℝ) (photon : Nat → Nat → Dir → ℂ) (conf : Nat → Nat → Quad) (x : Coords) (mu nu : Dir) :
    square g (glob g (prodConf conf (u1Conf e photon))) x mu nu = Complex.exp ((e * flux g (realField g photon) x mu nu : ℝ) * Complex.I) • square g (glob g conf) x mu nu :=
  square_phase g e (realField g photon) _ _ (fun x mu => C95_u3_link g e photon conf x mu) x mu nu

theorem square_u1 (g : Geo) (e : ℝ) (photon : Nat → Nat → Dir → ℂ) (x : Coords) (mu nu : Dir) :
    (square g (glob g (u1Conf e photon)) x mu nu).trace.re = 3 * Real.cos (e * flux g (realField g photon) x mu nu) := by
  rw [square_phase g e (realField g photon) (fun _ _ => 1) _ (fun x mu => glob_u1 g e photon x mu) x mu nu]
  have : square g (fun _ _ => (1 : M3)) x mu nu = 1 := by simp [square]
  rw [this, Matrix.trace_smul, Matrix.trace_one, Fintype.card_fin, smul_eq_mul, mul_comm, Complex.mul_re, Complex.exp_ofReal_mul_I_re]
  simp

/-- C95: the plaquette of the phase is the average, over the sites of the whole lattice and the six planes, of the cosine of the flux: for any grid of ranks -/
theorem C95_plaquette_of_phase (g : Geo) (ok : g.Ok) (ji : Nat) (jv : Quad) (sched : Nat → Nat → List Nat) (hl : ∀ rk, Reduce.Legal (sched rk)) (e : ℝ)
    (photon : Nat → Nat → Dir → ℂ) :
    average_plaquette_lx_conf g ji jv sched (u1Conf e photon) =
      (∑ x ∈ box g.L, (sixPlanes.map fun p => Real.cos (e * flux g (realField g photon) x p.1 p.2)).sum) / (6 * g.glbVol) := by
  unfold average_plaquette_lx_conf
  rw [C32_global_plaquette ok ji jv sched hl]
  simp only
  have h1 : ∀ x, timePlaq g (glob g (u1Conf e photon)) x + spacePlaq g (glob g (u1Conf e photon)) x =
      3 * (sixPlanes.map fun p => Real.cos (e * flux g (realField g photon) x p.1 p.2)).sum := by
    intro x
    unfold timePlaq spacePlaq sixPlanes
    simp only [square_u1, List.map_cons, List.map_nil, List.sum_cons, List.sum_nil]
    ring
  rw [← add_div, ← Finset.sum_add_distrib, Finset.sum_congr rfl fun x _ => h1 x, ← Finset.mul_sum]
  rw [div_div, mul_div_assoc]
  rw [show (9 * (g.glbVol : ℝ) * 2) = 3 * (6 * g.glbVol) by ring]
  rw [mul_div_assoc', mul_div_mul_left _ _ (by norm_num)]

/-- C95: a change of the gauge of the photon field does not change the flux, hence the plaquette of the phase -/
theorem C95_gauge_of_photon (g : Geo) (ok : g.Ok) (ji : Nat) (jv : Quad) (sched : Nat → Nat → List Nat) (hl : ∀ rk, Reduce.Legal (sched rk)) (e : ℝ)
    (photon photon' : Nat → Nat → Dir → ℂ) (lam : Coords → ℝ)
    (h : ∀ x mu, realField g photon' x mu = realField g photon x mu + lam (tshift g x mu 1) - lam x) :
    average_plaquette_lx_conf g ji jv sched (u1Conf e photon') = average_plaquette_lx_conf g ji jv sched (u1Conf e photon) := by
  rw [C95_plaquette_of_phase g ok ji jv sched hl, C95_plaquette_of_phase g ok ji jv sched hl]
  have hf : ∀ x mu nu, mu ≠ nu → flux g (realField g photon') x mu nu = flux g (realField g photon) x mu nu := by
    intro x mu nu hne
    unfold flux
    rw [h, h, h, h, tshift_comm g x hne 1 1]
    ring
  congr 1
  refine Finset.sum_congr rfl fun x _ => ?_
  unfold sixPlanes
  simp only [List.map_cons, List.map_nil]
  rw [hf x 0 1 (by decide), hf x 0 2 (by decide), hf x 0 3 (by decide), hf x 1 2 (by decide), hf x 1 3 (by decide), hf x 2 3 (by decide)]

/-- C95: with a charge and at least a configuration, the second part prints the plaquette of the phase of the last photon field; with an SU(3) configuration, its plaquette, that of the
product, and writes the product if a name is given. Missing for the full statement: a vanishing charge, no configuration (violated below) -/
theorem C95_second_partial (g : Geo) (ji : Nat) (jv : Quad) (sched : Nat → Nat → List Nat) (e : ℝ) (he : e ≠ 0) (n : Nat) (field : Nat → Nat → Nat → Dir → ℂ)
    (conf : Nat → Nat → Quad) (u3 : Bool) :
    ∃ o, second g ji jv sched e (lastField field (n + 1)) (some conf) u3 = some (some o) ∧
      o.pU1 = average_plaquette_lx_conf g ji jv sched (u1Conf e (field n)) ∧
      o.pSU3 = some (average_plaquette_lx_conf g ji jv sched conf) ∧
      o.pU3 = some (average_plaquette_lx_conf g ji jv sched (prodConf conf (u1Conf e (field n)))) ∧
      o.written = if u3 then some (prodConf conf (u1Conf e (field n))) else none := by
  have hlast : lastField field (n + 1) = some (field n) := by
    unfold lastField
    rw [if_neg (by omega)]
    congr 2
    omega
  unfold second
  rw [if_neg he, hlast]
  exact ⟨_, rfl, rfl, rfl, rfl, rfl⟩

/-- C95, violated: with no charge the product is not written, even if its name is given -/
theorem C95_violated_no_charge (g : Geo) (ji : Nat) (jv : Quad) (sched : Nat → Nat → List Nat) (photon : Option (Nat → Nat → Dir → ℂ)) (conf : Nat → Nat → Quad) :
    second g ji jv sched 0 photon (some conf) true = some none := by
  unfold second; rw [if_pos rfl]

/-- C95, violated: with a charge and no configuration the field used has never been written -/
theorem C95_violated_no_field (g : Geo) (ji : Nat) (jv : Quad) (sched : Nat → Nat → List Nat) (e : ℝ) (he : e ≠ 0) (field : Nat → Nat → Nat → Dir → ℂ) (n : Int) (hn : n ≤ 0)
    (su3 : Option (Nat → Nat → Quad)) (u3 : Bool) : second g ji jv sched e (lastField field n) su3 u3 = none := by
  unfold second lastField
  rw [if_neg he, if_pos hn]; rfl

end Nissa.CrU1
