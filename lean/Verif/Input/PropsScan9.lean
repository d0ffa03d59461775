import Verif.Input.PropsScan8
set_option linter.all false
namespace Nissa.Scan

/-! C87: parameters that the printed input does not give back. -/

/-- An environment where every pattern is a file. -/
def anyFile : Env := ⟨fun p => some [p], fun _ => true⟩

/-- The input is scanned, but the printed one is not accepted. -/
def Rejected (full : Bool) (input : List Tok) : Prop :=
  ∃ d, scan anyFile input = some d ∧ scan anyFile (print full d) = none

/-- The input is scanned, the printed one gives something else. -/
def Changed (full : Bool) (input : List Tok) : Prop :=
  ∃ d d', scan anyFile input = some d ∧ scan anyFile (print full d) = some d' ∧ d' ≠ d

theorem rejected_of {full : Bool} {input : List Tok} (h1 : (scan anyFile input).isSome = true)
    (h2 : ((scan anyFile input).bind fun d => scan anyFile (print full d)).isNone = true) :
    Rejected full input := by
  obtain ⟨d, hd⟩ := Option.isSome_iff_exists.1 h1
  refine ⟨d, hd, ?_⟩
  rw [hd] at h2
  simpa using h2

theorem changed_of {full : Bool} {input : List Tok} {α : Type} (obs : Driver → α) (x y : α) (hxy : y ≠ x)
    (h1 : (scan anyFile input).map obs = some x)
    (h2 : ((scan anyFile input).bind fun d => scan anyFile (print full d)).map obs = some y) :
    Changed full input := by
  cases hs : scan anyFile input with
  | none => rw [hs] at h1; cases h1
  | some d =>
    rw [hs] at h1 h2
    rw [Option.bind_some, Option.map_eq_some_iff] at h2
    obtain ⟨d', h3, h4⟩ := h2
    refine ⟨d, d', hs, h3, ?_⟩
    rintro rfl
    simp only [Option.map_some, Option.some.injEq] at h1
    exact hxy (by rw [← h4, ← h1])

/-- Setting. -/
def set (k : Kw) (v : Val) : List Tok := [.kw k, .eq, tokOf v]

/-- `#PrintFullInput` without pseudofermions prints an empty list, which is not accepted. -/
theorem C87_violated_full_without_pseudofermions : Rejected true [] :=
  rejected_of (by decide +kernel) (by decide +kernel)

/-- `#PrintFullInput` of mesons without operators. -/
theorem C87_violated_full_without_operators :
    Rejected true (.kw .measMesonCorrs :: .kw .evolution :: set .nPseudoFerms (.ints [1])) :=
  rejected_of (by decide +kernel) (by decide +kernel)

/-- The numbers of pseudofermions, alone, are not printed. -/
theorem C87_violated_only_pseudofermions :
    Changed false (.kw .evolution :: set .nPseudoFerms (.ints [2, 3])) :=
  changed_of (fun d => d.evol .nPseudoFerms) (.ints [2, 3]) (.ints []) (by decide +kernel)
    (by decide +kernel) (by decide +kernel)

/-- The number of steps of cooling is not printed. -/
theorem C87_violated_cooling_steps :
    Changed false (.kw .measTop :: set .smoothMethod (.word .cooling) ++ set .nSteps (.int 60)) :=
  changed_of (fun d => d.tops.map fun m => m.smooth.cool .nSteps) [.int 60] [.int 120] (by decide +kernel)
    (by decide +kernel) (by decide +kernel)

/-- Cooling left as constructed, measured every ten steps: the method is not printed. -/
theorem C87_violated_cooling_each :
    Rejected false (.kw .measTop :: set .smoothMethod (.word .cooling) ++ set .measEachNSmooth (.int 10)) :=
  rejected_of (by decide +kernel) (by decide +kernel)

/-- Stout left as constructed: `SmoothMethod =` is printed, and nothing after. -/
theorem C87_violated_smooth_stout :
    Rejected false (.kw .measTop :: set .smoothMethod (.word .stout)) :=
  rejected_of (by decide +kernel) (by decide +kernel)

/-- A theory left as constructed disappears, and the ones after change number. -/
theorem C87_violated_default_theory :
    Changed false ([.kw .theory, .kw .theory] ++ set .beta (.real 5)) :=
  changed_of (fun d => d.theories.length) 2 1 (by decide +kernel) (by decide +kernel) (by decide +kernel)

/-- The stout of a theory without quarks goes to its topological potential. -/
theorem C87_violated_stout_to_potential :
    Changed false (.kw .theory :: .kw .stout :: set .nLevels (.int 2) ++
      set .topoPotential (.word .ordinary) ++ set .theta (.real 1)) :=
  changed_of (fun d => d.theories.map fun t => (t.stout .nLevels, t.topoStout .nLevels))
    [(.int 2, .int 0)] [(.int 0, .int 2)] (by decide +kernel) (by decide +kernel) (by decide +kernel)

/-- `#PrintFullInput` switches on the e.m. field. -/
theorem C87_violated_full_em :
    Changed true (.kw .theory :: set .quark (.text "u") ++ .kw .evolution :: set .nPseudoFerms (.ints [1])) :=
  changed_of (fun d => d.theories.map fun t => t.emFlag) [false] [true] (by decide +kernel)
    (by decide +kernel) (by decide +kernel)

/-- The method of ellesettete is printed after `=`, which is not accepted. -/
theorem C87_violated_elle_method :
    Rejected false [.kw .measElleSettete, .kw .method, .kw .numerical] :=
  rejected_of (by decide +kernel) (by decide +kernel)

/-- The taste channel of ellesettete is printed as two words that are no keyword. -/
theorem C87_violated_elle_taste :
    Rejected false (.kw .measElleSettete :: set .tasteChannel (.word .gamma5)) :=
  rejected_of (by decide +kernel) (by decide +kernel)

/-- The correlators of Polyakov loops are not printed. -/
theorem C87_violated_luppoli : Changed false [.kw .measLuppoli] :=
  changed_of (fun d => d.luppolis.length) 1 0 (by decide +kernel) (by decide +kernel) (by decide +kernel)

/-- The maximal order of zumba is not printed. -/
theorem C87_violated_max_order : Changed false (.kw .measZumba :: set .maxOrder (.int 3)) :=
  changed_of (fun d => d.zumbas.map fun x => x .maxOrder) [.int 3] [.unset] (by decide +kernel)
    (by decide +kernel) (by decide +kernel)

/-- An e.m. field of 1e-14 is not printed. -/
theorem C87_violated_tiny_em :
    Changed false (.kw .theory :: .kw .bkgrdEMField :: [.kw .Ex, .eq, .val (.real (1 / 10 ^ 14))]) :=
  changed_of (fun d => d.theories.map fun t => t.em .Ex) [.real (1 / 10 ^ 14)] [.real 0] (by decide +kernel)
    (by decide +kernel) (by decide +kernel)

/-- The angle of a potential that is not used is not printed. -/
theorem C87_violated_unused_theta :
    Changed false (.kw .theory :: set .quark (.text "u") ++ set .topoPotential (.word .none_) ++ [.kw .theta, .eq, .val (.real 1)]) :=
  changed_of (fun d => d.theories.map fun t => t.topo .theta) [.real 1] [.real 0] (by decide +kernel)
    (by decide +kernel) (by decide +kernel)

/-- In an analysis the parameters of the configuration are not printed. -/
theorem C87_violated_analysis_conf :
    Changed false (.kw .gaugeConf :: set .startCond (.word .hot) ++ [.kw .analysis, .kw .confList, .eq, .texts ["conf"]]) :=
  changed_of (fun d => d.conf .startCond) (.word .hot) (.word .cold) (by decide +kernel)
    (by decide +kernel) (by decide +kernel)

theorem log6 : Int.log 10 |(61234567 / 10 ^ 7 : ℚ)| = 0 := by
  rw [abs_of_pos (by norm_num)]
  apply le_antisymm
  · rw [← Int.lt_add_one_iff, ← Int.lt_zpow_iff_log_lt (by norm_num) (by norm_num)]; norm_num
  · rw [← Int.zpow_le_iff_le_log (by norm_num) (by norm_num)]; norm_num

theorem six_beta : six (61234567 / 10 ^ 7) = 612346 / 10 ^ 5 := by
  unfold six
  rw [if_neg (by norm_num), log6]
  have : round (61234567 / 10 ^ 7 / (10 : ℚ) ^ ((0 : ℤ) - 5)) = 612346 := by
    rw [round_eq, Int.floor_eq_iff]; norm_num
  rw [this]; norm_num

/-- A coupling with eight digits loses two. -/
theorem C87_violated_digits :
    Changed false (.kw .theory :: [.kw .beta, .eq, .val (.real (61234567 / 10 ^ 7))]) := by
  refine changed_of (fun d => d.theories.map fun t => t.own .beta) [.real (61234567 / 10 ^ 7)]
    [.real (612346 / 10 ^ 5)] (by decide +kernel) (by decide +kernel) ?_
  rw [← six_beta]
  decide +kernel
end Nissa.Scan
