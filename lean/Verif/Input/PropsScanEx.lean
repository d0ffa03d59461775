import Verif.Input.PropsScan9
set_option linter.all false
namespace Nissa.Scan

/-! C87: an input that meets the hypotheses. -/

theorem digits_dflt_all (b : Blk) (k : Kw) : Digits (dflt b k) := by
  cases h : tyOf b k with
  | none => rw [lookup_unset h]; trivial
  | some ty => exact digits_dflt b _ (tyOf_mem h)

theorem digits_assign {k : Kw} {v : Val} {a : Asg} (hv : Digits v) (ha : ∀ j, Digits (a j)) (j : Kw) :
    Digits (assign k v a j) := by
  unfold assign
  split
  · dsimp only; split
    · exact hv
    · exact ha j
  · dsimp only; split
    · exact hv
    · exact ha j

/-- A theory with a quark, its stout and a field, a measurement with flow, an evolution. -/
def exIn : List Tok :=
  [.kw .geometry, .kw .T, .eq, .val (.int 8), .kw .L, .eq, .val (.int 6),
   .kw .theory, .kw .beta, .eq, .val (.real (11 / 2)), .kw .quark, .eq, .val (.text "up"),
   .kw .degeneracy, .eq, .val (.int 2), .kw .stout, .kw .nLevels, .eq, .val (.int 2),
   .kw .bkgrdEMField, .kw .Bz, .eq, .val (.int 3),
   .kw .measTop, .kw .each, .eq, .val (.int 5), .kw .smoothMethod, .eq, .kw .wFlow,
   .kw .nFlows, .eq, .val (.int 30), .kw .evolution, .kw .nSteps, .eq, .val (.int 9),
   .kw .nPseudoFerms, .eq, .val (.ints [2])]

/-- Its parameters. -/
def exOut : Driver :=
  { newDriver with
    geo := assign .L (.int 6) (assign .T (.int 8) (dflt .geo))
    theories := [{ newTheory with
      own := assign .beta (.real (11 / 2)) (dflt .theory)
      quarks := [("up", assign .degeneracy (.int 2) (dflt .quark))]
      stout := assign .nLevels (.int 2) (dflt .stout)
      emFlag := true
      em := assign .Bz (.real (3 : ℤ)) (dflt .em) }]
    tops := [⟨assign .each (.int 5) (dflt .top), { newSmooth with
      kind := .wFlow
      wflow := assign .nFlows (.int 30) (dflt .wflow) }⟩]
    evol := assign .nPseudoFerms (.ints [2]) (assign .nSteps (.int 9) (dflt .evol)) }

theorem exScan : scan anyFile exIn = some exOut := by rfl

theorem exDigits : FewDigits exOut := by
  have h1 : SixDigits (11 / 2) := ⟨55, -1, by norm_num, by norm_num⟩
  have h2 : SixDigits ((3 : ℤ) : ℚ) := ⟨3, 0, by norm_num, by norm_num⟩
  intro x hx
  simp only [blocks, exOut, newDriver, newTheory, newSmooth, blocksTh, blocksGm, List.mem_append, List.mem_cons,
    List.not_mem_nil, or_false, List.flatMap_cons, List.flatMap_nil, List.append_nil, List.map_cons,
    List.map_nil, List.nil_append, List.cons_append] at hx
  rcases hx with hx | hx <;> (repeat' (rcases hx with hx | hx)) <;> (try subst hx) <;>
    first
    | exact digits_dflt_all _
    | exact digits_assign trivial (digits_assign trivial (digits_dflt_all _))
    | exact digits_assign trivial (digits_dflt_all _)
    | exact digits_assign h1 (digits_dflt_all _)
    | exact digits_assign h2 (digits_dflt_all _)

theorem exKept (full : Bool) : Kept anyFile full exOut := by
  constructor
  · intro t ht
    simp only [exOut, List.mem_singleton] at ht
    subst ht
    refine ⟨fun _ h => ?_, fun _ => ⟨rfl, rfl⟩, fun h => absurd h (by decide), fun h => absurd h (by decide),
      fun h => absurd h (by simp), fun _ => rfl, fun _ k x hx => ?_⟩
    · have := congrArg Theory.emFlag h; cases this
    · by_cases hk : k = .Bz
      · subst hk
        have h3 : (Val.real (3 : ℤ)) = .real x := hx
        injection h3 with h3
        right; rw [← h3]; norm_num
      · have h3 : dflt .em k = .real x := by rw [← hx]; simp [assign, hk]
        cases h : tyOf .em k with
        | none => rw [lookup_unset h] at h3; cases h3
        | some ty =>
          have hm := tyOf_mem h
          rw [h3] at hm
          simp only [table, List.mem_cons, List.not_mem_nil, or_false, Prod.mk.injEq, Val.real.injEq] at hm
          left
          rcases hm with h | h | h | h | h | h <;> exact h.2.2
  · intro _ x hx; exact absurd hx List.not_mem_nil
  · intro x hx; exact absurd hx List.not_mem_nil
  · intro x hx; exact absurd hx List.not_mem_nil
  · intro m hm
    simp only [exOut, newDriver, List.nil_append, List.mem_singleton] at hm
    subst hm
    exact ⟨fun _ h => absurd h (by decide), fun _ h => absurd h (by decide)⟩
  · rfl
  · intro _ _; decide +kernel
  · intro _; right; exact ⟨.nSteps, by decide, by decide +kernel⟩
  · intro h; cases h
  · intro _; rfl

/-- The hypotheses of `C87_printed_input_rereads_partial` are met by an input with all kinds of
blocks, for both ways of printing. -/
example (full : Bool) : scan anyFile (print full exOut) = some exOut :=
  C87_printed_input_rereads_partial anyFile rfl full exIn exOut exScan exDigits (exKept full)
end Nissa.Scan
