import Verif.Quda.MgPars
import Mathlib.Tactic.Ring
import Mathlib.Tactic.Linarith
import Mathlib.Tactic.IntervalCases
/-!
C93: the file of parameters of the multigrid solvers.
-/
set_option linter.all false
namespace Nissa.MgPars

/-! ### Specification -/

/-- A setting: name and numbers. -/
structure Setting where
  par : Par
  vals : List Lit

/-- The words of a setting. -/
def Setting.words (s : Setting) : List Word := .name s.par :: s.vals.map .num

/-- How many numbers a parameter has, with `n` levels. -/
def count (n : ℕ) (p : Par) : ℕ :=
  match shape p with
  | .one => 1
  | .levels => n
  | .blocks => 4 * n

/-- The number of a setting that goes to the place `i`: the blocks are written in order TZYX, and stored
in order TXYZ. -/
def Setting.at (s : Setting) (i : ℕ) : Option Lit :=
  match shape s.par with
  | .one => if i = 0 then s.vals[0]? else none
  | .levels => s.vals[i]?
  | .blocks => s.vals[4 * (i / 4) + (4 - i % 4) % 4]?

/-- Number of levels given by a setting. -/
def newLevels (n : ℕ) (s : Setting) : ℕ :=
  if s.par = .nlevels then
    match s.vals with
    | [.int m] => m.toNat
    | _ => n
  else n

/-- Settings with the numbers they need: the levels are those of the last `nlevels` before.
`setup_refresh_tol` is left out. -/
def Fine : ℕ → List Setting → Prop
  | _, [] => True
  | n, s :: l => s.vals.length = count n s.par ∧ s.par ≠ .setupRefreshTol ∧
      (s.par = .nlevels → ∃ m : ℤ, s.vals = [.int m]) ∧ Fine (newLevels n s) l

/-- What a list of settings gives to the place `i` of the parameter `p`: the last number written for it. -/
def value (p : Par) (i : ℕ) : List Setting → Option Lit
  | [] => none
  | s :: l => (value p i l).or (if s.par = p then s.at i else none)

/-! ### Proofs -/

theorem run_none_done (nl : Bool) (s : St) (p : Par) (ws : List Word) :
    run nl s (some (p, [])) ws = run nl s none ws := by
  cases ws <;> rfl

/-- Filling of places. -/
def fill (s : St) (p : Par) : List ℕ → List Lit → St
  | i :: is, l :: ls => fill (set s p i (conv p l)) p is ls
  | _, _ => s

theorem run_fill (nl : Bool) (p : Par) : ∀ (is : List ℕ) (ls : List Lit) (s : St) (ws : List Word),
    is.length = ls.length →
    run nl s (some (p, is)) (ls.map .num ++ ws) = run nl (fill s p is ls) none ws := by
  intro is
  induction is with
  | nil =>
    intro ls s ws h
    have : ls = [] := List.length_eq_zero_iff.1 h.symm
    subst this
    exact run_none_done ..
  | cons i is ih =>
    intro ls s ws h
    cases ls with
    | nil => simp at h
    | cons l ls =>
      have := ih ls (set s p i (conv p l)) ws (by simpa using h)
      simpa [run, fill] using this

theorem fill_other (p q : Par) (hq : q ≠ p) : ∀ (is : List ℕ) (ls : List Lit) (s : St) (j : ℕ),
    fill s p is ls q j = s q j := by
  intro is
  induction is with
  | nil => intro ls s j; rfl
  | cons i is ih =>
    intro ls s j
    cases ls with
    | nil => rfl
    | cons l ls => rw [fill, ih]; simp [set, hq]

theorem fill_at (p : Par) : ∀ (is : List ℕ) (ls : List Lit) (s : St), is.Nodup → is.length = ls.length →
    (∀ (k i : ℕ), is[k]? = some i → ∃ l, ls[k]? = some l ∧ fill s p is ls p i = conv p l) ∧
    ∀ j, j ∉ is → fill s p is ls p j = s p j := by
  intro is
  induction is with
  | nil => intro ls s _ _; exact ⟨by simp, fun _ _ => rfl⟩
  | cons i is ih =>
    intro ls s hn hl
    cases ls with
    | nil => simp at hl
    | cons l ls =>
      rw [List.nodup_cons] at hn
      obtain ⟨h1, h2⟩ := ih ls (set s p i (conv p l)) hn.2 (by simpa using hl)
      refine ⟨?_, ?_⟩
      · intro k j hk
        cases k with
        | zero =>
          simp only [List.getElem?_cons_zero, Option.some.injEq] at hk
          subst hk
          refine ⟨l, rfl, ?_⟩
          rw [fill, h2 _ hn.1]
          simp [set]
        | succ k =>
          obtain ⟨m, hm, he⟩ := h1 k j (by simpa using hk)
          exact ⟨m, by simpa using hm, he⟩
      · intro j hj
        rw [List.mem_cons, not_or] at hj
        rw [fill, h2 _ hj.2]
        simp [set, hj.1]

theorem blocks_eq (n : ℕ) : ((List.range n).flatMap fun l => (List.range 4).map fun d => 4 * l + scidac d) =
    (List.range (4 * n)).map fun k => 4 * (k / 4) + (4 - k % 4) % 4 := by
  induction n with
  | zero => rfl
  | succ n ih =>
    rw [List.range_succ (n := n), List.flatMap_append, ih, show 4 * (n + 1) = 4 * n + 4 by ring, List.range_add,
      List.map_append]
    congr 1
    simp only [List.flatMap_cons, List.flatMap_nil, List.append_nil, List.map_map]
    apply List.map_congr_left
    intro k hk
    rw [List.mem_range] at hk
    have h1 : (4 * n + k) / 4 = n := by omega
    have h2 : (4 * n + k) % 4 = k := by omega
    simp only [Function.comp_apply, h1, h2]
    interval_cases k <;> rfl

theorem invol (k : ℕ) : 4 * ((4 * (k / 4) + (4 - k % 4) % 4) / 4) + (4 - (4 * (k / 4) + (4 - k % 4) % 4) % 4) % 4 = k := by
  have h0 : k % 4 < 4 := Nat.mod_lt _ (by norm_num)
  have : k % 4 = 0 ∨ k % 4 = 1 ∨ k % 4 = 2 ∨ k % 4 = 3 := by omega
  rcases this with h | h | h | h <;> rw [h] <;> omega

/-- The places of a parameter, and the number of the setting for each. -/
theorem places_spec (s : St) (p : Par) (hp : p ≠ .setupRefreshTol) :
    (places s p).length = count (nlev s) p ∧ (places s p).Nodup ∧
    ∀ (st : Setting), st.par = p → st.vals.length = count (nlev s) p → ∀ i : ℕ,
      (∀ k : ℕ, (places s p)[k]? = some i → st.at i = st.vals[k]?) ∧ (i ∉ places s p → st.at i = none) := by
  unfold places count
  rw [if_neg hp]
  cases hs : shape p with
  | one =>
    refine ⟨rfl, by simp, ?_⟩
    intro st hst hl i
    simp only [Setting.at, hst, hs]
    refine ⟨?_, ?_⟩
    · intro k hk
      cases k with
      | zero =>
        simp only [List.getElem?_cons_zero, Option.some.injEq] at hk
        simp [← hk]
      | succ k => simp at hk
    · intro hi
      rw [List.mem_singleton] at hi
      rw [if_neg hi]
  | levels =>
    refine ⟨by simp, List.nodup_range, ?_⟩
    intro st hst hl i
    simp only [Setting.at, hst, hs]
    refine ⟨?_, ?_⟩
    · intro k hk
      rw [List.getElem?_eq_some_iff] at hk
      obtain ⟨h1, h2⟩ := hk
      rw [List.getElem_range] at h2
      rw [h2]
    · intro hi
      rw [List.mem_range] at hi
      exact List.getElem?_eq_none (by simp only at hl; omega)
  | blocks =>
    simp only
    rw [blocks_eq]
    refine ⟨by simp, ?_, ?_⟩
    · rw [List.nodup_map_iff_inj_on List.nodup_range]
      intro a _ b _ h
      have := congrArg (fun k => 4 * (k / 4) + (4 - k % 4) % 4) h
      simp only [invol] at this
      exact this
    · intro st hst hl i
      simp only [Setting.at, hst, hs]
      refine ⟨?_, ?_⟩
      · intro k hk
        rw [List.getElem?_map, Option.map_eq_some_iff] at hk
        obtain ⟨a, ha, he⟩ := hk
        rw [List.getElem?_eq_some_iff] at ha
        obtain ⟨h1, h2⟩ := ha
        rw [List.getElem_range] at h2
        subst h2
        rw [← he, invol]
      · intro hi
        apply List.getElem?_eq_none
        rw [hl]
        by_contra hc
        apply hi
        rw [List.mem_map]
        exact ⟨4 * (i / 4) + (4 - i % 4) % 4, by rw [List.mem_range]; omega, invol i⟩

theorem fill_levels (s : St) (st : Setting) (hl : st.vals.length = count (nlev s) st.par)
    (hr : st.par ≠ .setupRefreshTol) (hn : st.par = .nlevels → ∃ m : ℤ, st.vals = [.int m]) :
    nlev (fill s st.par (places s st.par) st.vals) = newLevels (nlev s) st := by
  unfold newLevels
  by_cases h : st.par = .nlevels
  · obtain ⟨m, hm⟩ := hn h
    rw [if_pos h, hm, h]
    simp [places, shape, fill, nlev, set, conv]
  · rw [if_neg h]
    unfold nlev
    rw [fill_other _ _ (Ne.symm h)]

/-- C93: if each parameter named in the file is followed by its numbers, and the file ends with a
new line, each place of each parameter has at the end the last number written for it, or the value it had before
if there is none. -/
theorem C93_settings_are_stored_partial (l : List Setting) (h : Fine 3 l) :
    ∃ s, readPars (some (l.flatMap Setting.words, true)) = some s ∧
      ∀ p i, s p i = match value p i l with
        | some x => conv p x
        | none => dflt p i := by
  have key : ∀ (l : List Setting) (s0 : St), Fine (nlev s0) l →
      ∃ s, run true s0 none (l.flatMap Setting.words) = some s ∧
      ∀ p i, s p i = match value p i l with
        | some x => conv p x
        | none => s0 p i := by
    intro l
    induction l with
    | nil => intro s0 _; exact ⟨s0, rfl, fun _ _ => rfl⟩
    | cons st l ih =>
      intro s0 hf
      obtain ⟨hc, hr, hn, hf⟩ := hf
      obtain ⟨p1, p2, p3⟩ := places_spec s0 st.par hr
      rw [← fill_levels s0 st hc hr hn] at hf
      obtain ⟨s, h1, h2⟩ := ih _ hf
      refine ⟨s, ?_, ?_⟩
      · rw [List.flatMap_cons]
        have := run_fill true st.par (places s0 st.par) st.vals s0 (l.flatMap Setting.words) (by rw [p1, hc])
        rw [← h1, ← this]
        rfl
      · intro p i
        rw [h2 p i, value]
        cases hv : value p i l with
        | some x => rfl
        | none =>
          simp only [Option.none_or]
          by_cases hp : st.par = p
          · rw [if_pos hp]
            subst hp
            obtain ⟨f1, f2⟩ := fill_at st.par (places s0 st.par) st.vals s0 p2 (by rw [p1, hc])
            obtain ⟨q1, q2⟩ := p3 st rfl hc i
            by_cases hi : i ∈ places s0 st.par
            · obtain ⟨k, hk, he⟩ := List.getElem_of_mem hi
              have hk' : (places s0 st.par)[k]? = some i := by rw [List.getElem?_eq_getElem hk, he]
              obtain ⟨x, hx, hy⟩ := f1 k i hk'
              rw [q1 k hk', hx, hy]
            · rw [q2 hi, f2 i hi]
          · rw [if_neg hp, fill_other _ _ (Ne.symm hp)]
  exact key l dflt (by
    have : nlev dflt = 3 := by decide +kernel
    rw [this]; exact h)

/-- C93: without the file all the parameters have the value they had. -/
theorem C93_no_file_no_change : readPars none = some dflt := rfl

/-- C93: a parameter not named in the file keeps its value. -/
theorem C93_other_parameters_kept (l : List Setting) (h : Fine 3 l) (p : Par) (hp : ∀ st ∈ l, st.par ≠ p) :
    ∃ s, readPars (some (l.flatMap Setting.words, true)) = some s ∧ ∀ i, s p i = dflt p i := by
  obtain ⟨s, h1, h2⟩ := C93_settings_are_stored_partial l h
  refine ⟨s, h1, ?_⟩
  intro i
  have : value p i l = none := by
    clear h h1 h2
    induction l with
    | nil => rfl
    | cons st l ih =>
      rw [value, ih fun st hst => hp st (List.mem_cons_of_mem _ hst), if_neg (hp st List.mem_cons_self)]; rfl
  rw [h2, this]

/-- C93: a name not followed by a number for each of its places is an error, whatever was read before. -/
theorem C93_missing_numbers_are_refused (nl : Bool) (s : St) (st : Setting)
    (hl : st.vals.length < (places s st.par).length) (rest : List Word) (hrest : ∀ l ws, rest ≠ .num l :: ws) :
    run nl s none (st.words ++ rest) = none := by
  have key : ∀ (is : List ℕ) (ls : List Lit) (s : St), ls.length < is.length →
      run nl s (some (st.par, is)) (ls.map .num ++ rest) = none := by
    intro is
    induction is with
    | nil => intro ls s h; simp at h
    | cons i is ih =>
      intro ls s h
      cases ls with
      | nil =>
        cases rest with
        | nil => rfl
        | cons w rest =>
          cases w with
          | num l => exact absurd rfl (hrest l rest)
          | name p => rfl
          | other => rfl
      | cons l ls => exact ih ls _ (by simpa using h)
  exact key _ _ s hl

/-! ### What is missing -/

/-- What is missing in C93: `setup_refresh_tol` followed by its number is refused, as it is read twice. -/
theorem C93_violated_setup_refresh_tol (nl : Bool) (s : St) (x : Lit) (rest : List Word)
    (hrest : ∀ l ws, rest ≠ .num l :: ws) : run nl s none (.name .setupRefreshTol :: .num x :: rest) = none :=
  C93_missing_numbers_are_refused nl s ⟨.setupRefreshTol, [x]⟩ (by simp [places]) rest hrest

/-- What is missing in C93: a file that does not end with a space or new line is refused. -/
theorem C93_violated_no_final_new_line (ws : List Word) : readPars (some (ws, false)) = none := by
  have key : ∀ (ws : List Word) s todo, run false s todo ws = none := by
    intro ws
    induction ws with
    | nil =>
      intro s todo
      match todo with
      | none => rfl
      | some (p, []) => rfl
      | some (p, i :: is) => rfl
    | cons w ws ih =>
      intro s todo
      match todo, w with
      | none, .name p => exact ih _ _
      | none, .num l => exact ih _ _
      | none, .other => exact ih _ _
      | some (p, []), .name q => exact ih _ _
      | some (p, []), .num l => exact ih _ _
      | some (p, []), .other => exact ih _ _
      | some (p, i :: is), .num l => exact ih _ _
      | some (p, i :: is), .name q => rfl
      | some (p, i :: is), .other => rfl
  exact key ws _ _

/-- What is missing in C93: a name that is not a parameter is ignored, with its number. -/
theorem C93_violated_unknown_names_ignored (nl : Bool) (s : St) (x : Lit) (rest : List Word) :
    run nl s none (.other :: .num x :: rest) = run nl s none rest := rfl

/-- What is missing in C93: the order counts: with the number of levels after the numbers of the levels, those
past the third one are not stored. -/
theorem C93_violated_order_of_levels :
    ∃ s s', readPars (some ([.name .nlevels, .num (.int 4), .name .nsetups, .num (.int 5), .num (.int 6), .num (.int 7),
        .num (.int 8)], true)) = some s ∧
      readPars (some ([.name .nsetups, .num (.int 5), .num (.int 6), .num (.int 7), .num (.int 8), .name .nlevels,
        .num (.int 4)], true)) = some s' ∧ s .nlevels 0 = s' .nlevels 0 ∧ s .nsetups 3 = 8 ∧ s' .nsetups 3 = 0 := by
  refine ⟨_, _, rfl, rfl, by decide +kernel, by decide +kernel, by decide +kernel⟩

/-- What is missing in C93: there is no check on the number of levels: with five of them a number is stored
after the end of the place of the four. -/
theorem C93_violated_too_many_levels (s : St) (h : s .nlevels 0 = 5) : maxLevels ∈ places s .nsetups := by
  have : nlev s = 5 := by unfold nlev; rw [h]; rfl
  simp [places, shape, this, maxLevels]

/-- What is missing in C93: without a file there are three levels, and only the first one has the factor of the twisted
mass and the number of iterations that all of them should have. -/
theorem C93_violated_defaults_of_levels :
    nlev dflt = 3 ∧ dflt (.muFactor false) 0 = 1 ∧ dflt (.muFactor false) 1 = 0 ∧ dflt (.muFactor false) 2 = 0 ∧
      dflt (.nuPost false) 0 = 7 ∧ dflt (.nuPost false) 1 = 0 ∧ dflt .nsetups 0 = 4 ∧ dflt .nsetups 1 = 0 := by
  decide +kernel

/-- The hypotheses of C93. -/
example : Fine 3 [⟨.muFactor false, [.int 1, .real (1 / 2), .int 8]⟩, ⟨.nlevels, [.int 2]⟩,
    ⟨.blockSize, [.int 4, .int 3, .int 2, .int 1, .int 8, .int 7, .int 6, .int 5]⟩] ∧
    (⟨.blockSize, [.int 4, .int 3, .int 2, .int 1, .int 8, .int 7, .int 6, .int 5]⟩ : Setting).at 5 = some (.int 5) := by
  refine ⟨⟨rfl, by decide, (fun h => by cases h), rfl, by decide, fun _ => ⟨2, rfl⟩, rfl, by decide, (fun h => by cases h), trivial⟩, rfl⟩
end Nissa.MgPars
