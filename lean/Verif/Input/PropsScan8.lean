import Verif.Input.PropsScan7
set_option linter.all false
namespace Nissa.Scan

/-! C87: the printed input, scanned again, gives the same parameters. -/

/-- All the blocks of parameters of a theory. -/
def blocksTh (t : Theory) : List Asg :=
  [t.own, t.topo, t.topoStout, t.stout, t.em] ++ t.quarks.map Prod.snd

/-- All the blocks of parameters of a gauge measurement. -/
def blocksGm (m : GMeas) : List Asg :=
  [m.own, m.smooth.own, m.smooth.cool, m.smooth.stout, m.smooth.wflow, m.smooth.ape, m.smooth.hyp]

/-- All the blocks of parameters. -/
def blocks (d : Driver) : List Asg :=
  [d.geo, d.run, d.evol, d.quen, d.conf] ++ d.theories.flatMap blocksTh ++ d.mesons ++ d.zumbas ++
  d.elles ++ d.luppolis ++ (d.plaqs ++ d.tops).flatMap blocksGm

/-- Every real parameter has at most six significant digits. -/
def FewDigits (d : Driver) : Prop := ∀ x ∈ blocks d, ∀ k, Digits (x k)

/-- What a theory must be to survive: `full` is `#PrintFullInput`. -/
structure KeptTheory (full : Bool) (t : Theory) : Prop where
  /-- the header is not printed for a theory left as constructed -/
  notNew : full = false → t ≠ newTheory
  /-- parameters of a potential that is not used are not printed -/
  off : t.topoKind = .none_ → t.topo = dflt .topo ∧ t.topoStout = dflt .stout
  /-- of the ordinary potential, only `Theta` is printed -/
  ord : t.topoKind = .ordinary → t.topoStout = dflt .stout ∧ ∀ k, k ≠ .theta → t.topo k = dflt .topo k
  /-- of the metadynamic one, `Theta` is not -/
  met : t.topoKind = .meta_ → t.topo .theta = dflt .topo .theta
  /-- the stout of a theory follows a quark or a theory without printed potential -/
  place : t.quarks = [] → (full = true ∨ t.topoKind ≠ .none_) → full = false ∧ t.stout = dflt .stout
  /-- the field is always printed by `#PrintFullInput`, and reading it switches it on -/
  flag : full = true → t.emFlag = true
  /-- a component of the field up to 1e-14 is not printed -/
  tiny : full = false → ∀ k x, t.em k = .real x → x = 0 ∨ (1 : ℚ) / 10 ^ 14 < |x|

/-- What a smoothing must be to survive. -/
structure KeptSmooth (full : Bool) (s : Smooth) : Prop where
  /-- the method is printed only if its parameters change, and looked at only if the others do -/
  cooling : full = false → s.kind = .cooling → (s.cool = dflt .cool ↔ s.own = dflt .smooth)
  /-- the name of the method is not printed for a stout left as constructed -/
  stouting : full = false → s.kind = .stout → s.stout ≠ dflt .stout

/-- What the parameters must be to survive. -/
structure Kept (e : Env) (full : Bool) (d : Driver) : Prop where
  theory : ∀ t ∈ d.theories, KeptTheory full t
  /-- an empty list of operators is printed but not read -/
  meson : full = true → ∀ x ∈ d.mesons, x .operators ≠ .pairs []
  /-- `MaxOrder` is not printed -/
  zumba : ∀ x ∈ d.zumbas, x .maxOrder = .unset
  /-- `Method` and `TasteChannel` are printed in a way that is not read -/
  elle : ∀ x ∈ d.elles, full = false ∧ x .method = dflt .elle .method ∧
    x .tasteChannel = dflt .elle .tasteChannel
  smooth : ∀ m ∈ d.plaqs ++ d.tops, KeptSmooth full m.smooth
  /-- the correlators of Polyakov loops are not printed -/
  luppoli : d.luppolis = []
  /-- an empty list of numbers of pseudofermions is printed but not read; alone, a list is not printed -/
  pseudoFull : d.analysis = false → full = true → d.evol .nPseudoFerms ≠ .ints []
  pseudo : full = false → d.evol .nPseudoFerms = .ints [] ∨ ∃ k, k ≠ .nPseudoFerms ∧ d.evol k ≠ dflt .evol k
  /-- in an analysis the parameters of the evolution are not printed, and patterns are expanded again -/
  ana : d.analysis = true → d.force = false ∧ d.evol = dflt .evol ∧ d.quen = dflt .quen ∧
    d.conf = dflt .conf ∧ d.confList ≠ [] ∧ ∀ p ∈ d.confList, noQuote p = true ∧ e.glob p = some [p]
  evo : d.analysis = false → d.confList = []

theorem good_stout {e : Env} (he : EnvOk e) {full : Bool} {b : Blk} {x : Asg} (hr : Read e b x)
    (hd : ∀ k, Digits (x k)) (hreg : regular b = true) (hb : b ≠ .em)
    (hn : ∀ k ∈ printed b, k ∉ [Kw.nPseudoFerms, .operators]) : Good e full b x :=
  good_of_read he hr hd hreg (fun h => absurd h hb) (fun _ k hk hk' => absurd hk' (hn k hk))

theorem read_em {e : Env} {x : Asg} (h : Read e .em x) {k : Kw} (hk : x k ≠ dflt .em k) :
    ∃ q, x k = .real q ∧ q ≠ 0 := by
  rcases h k with h1 | ⟨_, ty, t, h1, h2⟩
  · exact absurd h1 hk
  · have hm := tyOf_mem h1
    have hty : ty = .real ∧ dflt .em k = .real 0 := by
      revert hm
      generalize dflt .em k = v
      intro hm
      simp only [table, List.mem_cons, List.not_mem_nil, or_false, Prod.mk.injEq] at hm
      rcases hm with h | h | h | h | h | h <;> exact ⟨h.2.1, h.2.2⟩
    obtain ⟨rfl, hv⟩ := hty
    rw [hv] at hk
    unfold accept at h2
    split at h2 <;> simp_all
    · exact ⟨_, h2.symm, fun h0 => hk (by rw [← h2, h0])⟩
    · exact ⟨_, h2.symm, fun h0 => hk (by rw [← h2, h0])⟩

theorem goodTheory_of {e : Env} (he : EnvOk e) {full : Bool} {t : Theory} (hr : ReadTheory e t)
    (hd : ∀ x ∈ blocksTh t, ∀ k, Digits (x k)) (hk : KeptTheory full t) : GoodTheory e full t := by
  have d1 := hd t.own (by simp [blocksTh])
  have d2 := hd t.topo (by simp [blocksTh])
  have d3 := hd t.topoStout (by simp [blocksTh])
  have d4 := hd t.stout (by simp [blocksTh])
  have d5 := hd t.em (by simp [blocksTh])
  have d6 : ∀ q ∈ t.quarks, ∀ k, Digits (q.2 k) := fun q hq =>
    hd q.2 (by simp only [blocksTh, List.mem_append, List.mem_map]; exact Or.inr ⟨q, hq, rfl⟩)
  have gl : ∀ k ∈ Kw.theta :: metaKeys, GoodLine e .topo t.topo k := by
    intro k hk'
    have hp : (tyOf .topo k).isSome = true ∧ label .topo k = [.kw k] ∧ k ≠ .method ∧
        k ∉ [Kw.nPseudoFerms, .operators, .maxOrder, .L] := by
      revert hk'; revert k; decide +kernel
    obtain ⟨ty, ht⟩ := Option.isSome_iff_exists.1 hp.1
    exact goodLine_of_read he hr.topo d2 ht hp.2.1 hp.2.2.1 (Or.inl hp.2.2.2)
  refine ⟨hk.notNew, good_stout he hr.own d1 (by decide +kernel) (by decide) (by decide +kernel), hk.off,
    fun h => ⟨(hk.ord h).1, (hk.ord h).2, gl _ (by simp)⟩, fun h => ⟨?_, ?_, fun k hk' => gl k (by simp [hk'])⟩,
    ?_, ?_, good_stout he hr.stout d4 (by decide +kernel) (by decide) (by decide +kernel), hk.place, ?_, ?_⟩
  · exact good_stout he hr.topoStout d3 (by decide +kernel) (by decide) (by decide +kernel)
  · intro k hk'
    by_cases hth : k = .theta
    · subst hth; exact hk.met h
    · rcases hr.topo k with h1 | ⟨_, ty, _, h1, _⟩
      · exact h1
      · exfalso
        have hm := tyOf_mem h1
        revert hm
        generalize dflt .topo k = v
        intro hm
        simp only [table, List.mem_cons, List.not_mem_nil, or_false, Prod.mk.injEq] at hm
        simp only [metaKeys, List.mem_cons, List.not_mem_nil, or_false, not_or] at hk'
        rcases hm with h | h | h | h | h | h | h | h | h <;> simp_all
  · have := hr.kind
    simpa using this
  · intro q hq
    exact ⟨(hr.quark q hq).1, good_stout he (hr.quark q hq).2 (d6 q hq) (by decide +kernel) (by decide)
      (by decide +kernel)⟩
  · refine good_of_read he hr.em d5 (by decide +kernel) ?_ (fun _ k hk hk' => absurd hk' ?_)
    · intro _ k hk'
      obtain ⟨q, hq, hq0⟩ := read_em hr.em hk'
      unfold on
      cases full with
      | true => rfl
      | false =>
        rcases hk.tiny rfl k q hq with h | h
        · exact absurd h hq0
        · rw [hq]; simp only [differs, Bool.false_or, decide_eq_true_eq]; exact h
    · revert hk; revert k; decide +kernel
  · cases hf : t.emFlag with
    | true => exact Or.inl rfl
    | false =>
      right
      cases full with
      | true => have := hk.flag rfl; rw [hf] at this; cases this
      | false => exact ⟨rfl, hr.flag hf⟩

theorem goodSmooth_of {e : Env} (he : EnvOk e) {full : Bool} {m : GMeas} (hr : ReadSmooth e m.smooth)
    (hd : ∀ x ∈ blocksGm m, ∀ k, Digits (x k)) (hk : KeptSmooth full m.smooth) :
    GoodSmooth e full m.smooth := by
  have d1 := hd m.smooth.own (by simp [blocksGm])
  have d2 := hd m.smooth.cool (by simp [blocksGm])
  have d3 := hd m.smooth.stout (by simp [blocksGm])
  have d4 := hd m.smooth.wflow (by simp [blocksGm])
  have d5 := hd m.smooth.ape (by simp [blocksGm])
  have d6 := hd m.smooth.hyp (by simp [blocksGm])
  refine ⟨hr.kind, good_stout he hr.own d1 (by decide +kernel) (by decide) (by decide +kernel), ?_,
    hr.cool, hr.stout, hr.wflow, hr.ape, hr.hyp, hk.cooling, hk.stouting⟩
  have hkind := hr.kind
  simp only [List.mem_cons, List.not_mem_nil, or_false] at hkind
  rcases hkind with h | h | h | h | h <;> simp only [h, subOf, subBlk]
  · exact good_stout he hr.rcool d2 (by decide +kernel) (by decide) (by decide +kernel)
  · exact good_stout he hr.rstout d3 (by decide +kernel) (by decide) (by decide +kernel)
  · exact good_stout he hr.rwflow d4 (by decide +kernel) (by decide) (by decide +kernel)
  · exact good_stout he hr.rape d5 (by decide +kernel) (by decide) (by decide +kernel)
  · exact good_stout he hr.rhyp d6 (by decide +kernel) (by decide) (by decide +kernel)

theorem read_printed {e : Env} {b : Blk} {x : Asg} (hr : Read e b x) {k : Kw} (hx : x k ≠ dflt b k) :
    k ∈ (table b).map Prod.fst := by
  rcases hr k with h1 | ⟨_, ty, _, h1, _⟩
  · exact absurd h1 hx
  · exact List.mem_map.2 ⟨_, tyOf_mem h1, rfl⟩

theorem good_zumba {e : Env} (he : EnvOk e) {full : Bool} {x : Asg} (hr : Read e .zumba x)
    (hd : ∀ k, Digits (x k)) (hm : x .maxOrder = .unset) : Good e full .zumba x := by
  constructor
  · intro k hk hon
    clear hon
    have hp : (tyOf .zumba k).isSome = true ∧ label .zumba k = [.kw k] ∧ k ≠ .method ∧
        k ∉ [Kw.nPseudoFerms, .operators, .maxOrder, .L] := by
      revert hk; revert k; decide +kernel
    obtain ⟨ty, ht⟩ := Option.isSome_iff_exists.1 hp.1
    exact goodLine_of_read he hr hd ht hp.2.1 hp.2.2.1 (Or.inl hp.2.2.2)
  · intro k hx
    have h1 := read_printed hr hx
    have h2 : k ≠ .maxOrder := by rintro rfl; exact hx hm
    refine ⟨?_, by unfold on; rw [differs_eq (by decide)]; simp [hx]⟩
    revert h1 h2; clear hx; revert k; decide +kernel

theorem good_elle {e : Env} (he : EnvOk e) {x : Asg} (hr : Read e .elle x) (hd : ∀ k, Digits (x k))
    (h1 : x .method = dflt .elle .method) (h2 : x .tasteChannel = dflt .elle .tasteChannel) :
    Good e false .elle x := by
  constructor
  · intro k hk hon
    unfold on at hon
    rw [differs_eq (by decide)] at hon
    simp only [Bool.false_or, decide_eq_true_eq] at hon
    have n1 : k ≠ .method := by rintro rfl; exact hon h1
    have n2 : k ≠ .tasteChannel := by rintro rfl; exact hon h2
    have hp : (tyOf .elle k).isSome = true ∧ label .elle k = [.kw k] ∧
        k ∉ [Kw.nPseudoFerms, .operators, .maxOrder, .L] := by
      clear hon; revert hk n1 n2; revert k; decide +kernel
    obtain ⟨ty, ht⟩ := Option.isSome_iff_exists.1 hp.1
    exact goodLine_of_read he hr hd ht hp.2.1 n1 (Or.inl hp.2.2)
  · intro k hx
    have h1 := read_printed hr hx
    refine ⟨?_, by unfold on; rw [differs_eq (by decide)]; simp [hx]⟩
    revert h1; clear hx; revert k; decide +kernel

theorem nonstd_evol {e : Env} {x : Asg} (hr : Read e .evol x) {k : Kw} (hk : k ≠ .nPseudoFerms)
    (hx : x k ≠ dflt .evol k) : nonstd .evol x = true := by
  have h1 := read_printed hr hx
  unfold nonstd
  rw [List.any_eq_true]
  refine ⟨k, ?_, by rw [differs_eq (by decide)]; simp [hx]⟩
  have hlist : ∀ j ∈ (table .evol).map Prod.fst, j ≠ .nPseudoFerms → j ∈ checked .evol := by decide +kernel
  exact hlist k h1 hk

theorem goodDriver_of {e : Env} (he : EnvOk e) {full : Bool} {d : Driver} (hs : Scanned e d)
    (hd : FewDigits d) (hk : Kept e full d) : GoodDriver e full d := by
  have hb : ∀ x, x ∈ blocks d → ∀ k, Digits (x k) := hd
  have dm : ∀ m ∈ d.plaqs ++ d.tops, ∀ x ∈ blocksGm m, ∀ k, Digits (x k) := by
    intro m hm x hx
    exact hb x (by simp only [blocks, List.mem_append, List.mem_flatMap]; exact Or.inr ⟨m, by simpa using hm, hx⟩)
  constructor
  · exact hs.tag
  · exact hs.geo
  · intro t ht
    refine goodTheory_of he (hs.theory t ht) (fun x hx => hb x ?_) (hk.theory t ht)
    simp only [blocks, List.mem_append, List.mem_flatMap]
    exact Or.inl (Or.inl (Or.inl (Or.inl (Or.inl (Or.inr ⟨t, ht, hx⟩)))))
  · intro x hx
    refine good_of_read he (hs.meson x hx) (hb x (by simp [blocks, hx])) (by decide +kernel) (by simp) ?_
    intro hf k hk1 hk2
    have : k = .operators := by revert hk1 hk2; revert k; decide +kernel
    subst this
    exact hk.meson hf x hx
  · intro x hx
    exact good_zumba he (hs.zumba x hx) (hb x (by simp [blocks, hx])) (hk.zumba x hx)
  · intro x hx
    obtain ⟨rfl, h1, h2⟩ := hk.elle x hx
    exact good_elle he (hs.elle x hx) (hb x (by simp [blocks, hx])) h1 h2
  · intro m hm
    have hm' : m ∈ d.plaqs ++ d.tops := by simp [hm]
    obtain ⟨h1, h2⟩ := hs.gm .plaq m hm
    exact ⟨good_stout he h1 (dm m hm' _ (by simp [blocksGm])) (by decide +kernel) (by decide) (by decide +kernel),
      goodSmooth_of he h2 (dm m hm') (hk.smooth m hm')⟩
  · intro m hm
    have hm' : m ∈ d.plaqs ++ d.tops := by simp [hm]
    obtain ⟨h1, h2⟩ := hs.gm .top m hm
    exact ⟨good_stout he h1 (dm m hm' _ (by simp [blocksGm])) (by decide +kernel) (by decide) (by decide +kernel),
      goodSmooth_of he h2 (dm m hm') (hk.smooth m hm')⟩
  · exact hk.luppoli
  · exact good_stout he hs.run (hb _ (by simp [blocks])) (by decide +kernel) (by decide) (by decide +kernel)
  · intro hana
    refine good_of_read he hs.evol (hb _ (by simp [blocks])) (by decide +kernel) (by simp) ?_
    intro hf k hk1 hk2
    have : k = .nPseudoFerms := by
      have hlist : ∀ j ∈ printed .evol, j ∈ [Kw.nPseudoFerms, .operators] → j = .nPseudoFerms := by
        decide +kernel
      exact hlist k hk1 hk2
    subst this
    exact hk.pseudoFull hana hf
  · intro hf
    rcases hk.pseudo hf with h | ⟨k, h1, h2⟩
    · exact Or.inl h
    · exact Or.inr (nonstd_evol hs.evol h1 h2)
  · exact good_stout he hs.quen (hb _ (by simp [blocks])) (by decide +kernel) (by decide) (by decide +kernel)
  · exact good_stout he hs.conf (hb _ (by simp [blocks])) (by decide +kernel) (by decide) (by decide +kernel)
  · exact hk.ana
  · exact hk.evo

/-- C87 (partial: the real parameters have at most six significant digits, and the parameters are
among those that the printing keeps; the losses are the theorems `C87_violated_*`). -/
theorem C87_printed_input_rereads_partial (e : Env) (he : e.template "stored_conf.%08d" = true)
    (full : Bool) (input : List Tok) (d : Driver) (h : scan e input = some d) (hd : FewDigits d)
    (hk : Kept e full d) : scan e (print full d) = some d :=
  scan_print (goodDriver_of he (scanned_of_scan h) hd hk)
end Nissa.Scan
