import Verif.Tools.PropsFindPart4
set_option linter.all false

/-! C85 and C86: the mapping of ranks to nodes, and the choice of the rank grid. -/

namespace Nissa.Part

/-! ## the run -/

theorem fact_nil_iff {NR : Nat} (h : 0 < NR) : factorize NR = [] ↔ NR = 1 := by
  have f := factorize_spec h
  constructor
  · intro e; rw [e] at f; simpa using f.1.symm
  · rintro rfl; rfl

/-- all that is known of a run that gets to the loop -/
theorem run_spec {t : Torus} {L : C4} {P : Lister} (fuel : Nat) (hg : ∀ α, 0 < t.grid α) (hL : ∀ m, 0 < L m) (hm : mkLister L t.N = some P)
    (hne : P.facts ≠ []) (hf : 4 ^ (factorize t.N).length < fuel) :
    (run fuel t L = .divByZero ∧ ∀ R, GoodGrid L t.N R → ¬ Found t R) ∨
    ∃ R w, run fuel t L = .files (fun r => (createMapping t R (setFromWay w)).read r) R (vdir (fun m => L m / R m)) ∧
      GoodGrid L t.N R ∧ Found t R ∧ Hosts t R (wayDir w) ∧ ∀ R', GoodGrid L t.N R' → Found t R' → NotWorse L R R' := by
  obtain ⟨eL, hp, hd, pr, len, _, cs⟩ := mkLister_spec hm hL
  have hnc : P.ncombo ≤ 4 ^ (factorize t.N).length := Nat.pow_le_pow_right (by decide) len
  have hpos : 0 < P.ncombo := Nat.pow_pos (by decide)
  obtain ⟨l, e, nd, hl⟩ := mainLoop_spec t P fuel 0 [] hpos (aligned_zero P) (.inr (by omega)) (by simp) (by simp) (by omega)
  have hl' : ∀ R, R ∈ l ↔ GoodGrid L t.N R := fun R => (hl R).trans (listed_iff hm hL R)
  have hN : ∀ R ∈ l, rankN R = t.N := fun R hR => ((hl' R).1 hR).1
  have ok := champOf_spec L hg l hN
  have hrun : run fuel t L = match some (l, champOf t P.L l) with
      | none => .noFuel
      | some (_, none) => .divByZero
      | some (_, some b) => .files (fun r => (createMapping t b.rank b.assign).read r) b.rank (vdir (fun mu => L mu / b.rank mu)) := by
    unfold run
    rw [hm]
    dsimp only
    rw [if_neg hne, ← e]
    rfl
  rw [eL] at hrun
  cases hc : champOf t L l with
  | none =>
    rw [hc] at hrun ok
    exact .inl ⟨hrun, fun R hR => ok R ((hl' R).2 hR)⟩
  | some b =>
    rw [hc] at hrun ok
    obtain ⟨k1, k2, _, _, ⟨w, hw, hh⟩, k6⟩ := ok
    refine .inr ⟨b.rank, w, ?_, (hl' _).1 k1, k2, hh, fun R' h1 h2 => k6 R' ((hl' R').2 h1) h2⟩
    rw [hrun, ← hw]

/-- the files are written for an admissible grid, with a distribution that hosts it -/
theorem run_files {t : Torus} {L : C4} {fuel : Nat} {map : Nat → C5} {R : C4} {v : Option Dir} (hg : ∀ α, 0 < t.grid α) (hL : ∀ m, 0 < L m)
    (hf : 4 ^ (factorize t.N).length < fuel) (h : run fuel t L = .files map R v) :
    ∃ w, map = (fun r => (createMapping t R (setFromWay w)).read r) ∧ v = vdir (fun m => L m / R m) ∧ GoodGrid L t.N R ∧ Found t R ∧
      Hosts t R (wayDir w) ∧ ∀ R', GoodGrid L t.N R' → Found t R' → NotWorse L R R' := by
  rcases hm : mkLister L t.N with _ | P
  · unfold run at h; rw [hm] at h; cases h
  · by_cases hne : P.facts = []
    · unfold run at h; rw [hm] at h; dsimp only at h; rw [if_pos hne] at h; cases h
    · rcases run_spec fuel hg hL hm hne hf with ⟨e, _⟩ | ⟨R', w, e, rest⟩
      · rw [h] at e; cases e
      · rw [h] at e
        injection e with e1 e2 e3
        subst e2
        exact ⟨w, e1, e3, rest⟩

theorem exact_of_hosts {t : Torus} {R : C4} {w : Nat} (h : Hosts t R (wayDir w)) : Exact t R (setFromWay w) := by
  intro m; rw [prodL_way]; exact (h.1 m).symm

/-! ## C85 -/

section
variable {t : Torus} {L : C4} {fuel : Nat} {map : Nat → C5} {R : C4} {v : Option Dir}

/-- C85: the mapping file gives each rank a node of the machine, no node twice, and every node is used. -/
theorem C85_each_rank_has_its_own_node (hg : ∀ α, 0 < t.grid α) (hL : ∀ m, 0 < L m) (hf : 4 ^ (factorize t.N).length < fuel)
    (h : run fuel t L = .files map R v) :
    (∀ r < t.N, ∀ α, map r α < t.grid α) ∧ (∀ r < t.N, ∀ r' < t.N, map r = map r' → r = r') ∧
    ∀ c : C5, (∀ α, c α < t.grid α) → ∃ r < t.N, map r = c := by
  obtain ⟨w, rfl, _, gg, _, hh, _⟩ := run_files hg hL hf h
  have he := exact_of_hosts hh
  have hp := proper_setFromWay w
  have hN : rankN R = t.N := gg.1
  refine ⟨?_, ?_, ?_⟩
  · intro r hr
    obtain ⟨x, hx, rfl⟩ := lexRank_surj (R := R) (by rw [hN]; exact hr)
    exact (read_lexRank hp he hx).1
  · intro r hr r' hr' e
    obtain ⟨x, hx, rfl⟩ := lexRank_surj (R := R) (by rw [hN]; exact hr)
    obtain ⟨y, hy, rfl⟩ := lexRank_surj (R := R) (by rw [hN]; exact hr')
    have e1 := (read_lexRank hp he hx).2
    have e2 := (read_lexRank hp he hy).2
    dsimp only at e
    rw [e] at e1
    rw [e1.symm.trans e2]
  · intro c hc
    refine ⟨rankId t R (setFromWay w) c, ?_, ?_⟩
    · rw [rankId_eq, ← hN]; exact lexRank_lt (rankPos_lt hp he hc)
    · dsimp only
      rw [Mapping.read, createMapping_rankId hp he hc]; rfl

/-- C85: ranks which follow each other in a lattice direction are on consecutive nodes. `lexRank R x` is the rank of coordinates `x`. -/
theorem C85_consecutive_ranks_on_consecutive_nodes (hg : ∀ α, 0 < t.grid α) (hL : ∀ m, 0 < L m) (hf : 4 ^ (factorize t.N).length < fuel)
    (h : run fuel t L = .files map R v) (x : C4) (hx : ∀ m, x m < R m) (m : Dir) (hm : x m + 1 < R m) :
    StepNode (map (lexRank R x)) (map (lexRank R (Function.update x m (x m + 1)))) := by
  obtain ⟨w, rfl, _, gg, _, hh, _⟩ := run_files hg hL hf h
  have he := exact_of_hosts hh
  have hp := proper_setFromWay w
  have hy : ∀ n, Function.update x m (x m + 1) n < R n := by
    intro n
    by_cases hn : n = m
    · subst hn; simpa using hm
    · rw [Function.update_of_ne hn]; exact hx n
  obtain ⟨b1, e1⟩ := read_lexRank hp he hx
  obtain ⟨b2, e2⟩ := read_lexRank hp he hy
  dsimp only
  set c := (createMapping t R (setFromWay w)).read (lexRank R x)
  set c' := (createMapping t R (setFromWay w)).read (lexRank R (Function.update x m (x m + 1)))
  have st := rankCoord_step (g := t.grid) (c := c) (c' := c') (l := setFromWay w m) (hp.nodup m) (fun α _ => b1 α) (fun α _ => b2 α) false (by
    have q1 := congrFun e1 m
    have q2 := congrFun e2 m
    rw [Function.update_self] at q2
    unfold rankPos at q1 q2
    rw [q1, q2])
  obtain ⟨α, hα, s1, s2⟩ := st
  refine ⟨α, ?_, s1⟩
  intro β hβ
  obtain ⟨n, hn⟩ := hp.ex β
  by_cases hnm : n = m
  · subst hnm; exact s2 β hn hβ
  · refine rankCoord_inj (g := t.grid) (l := setFromWay w n) (fun α _ => b1 α) (fun α _ => b2 α) false ?_ β hn
    have q1 := congrFun e1 n
    have q2 := congrFun e2 n
    rw [Function.update_of_ne hnm] at q2
    unfold rankPos at q1 q2
    rw [q1, q2]

/-- C85: around the periodic boundary, when every torus direction is of size one or even and those longer than two are closed. -/
theorem C85_first_and_last_rank_are_linked (hg : ∀ α, 0 < t.grid α) (hL : ∀ m, 0 < L m) (hf : 4 ^ (factorize t.N).length < fuel)
    (hev : ∀ α, t.grid α = 1 ∨ t.grid α % 2 = 0) (hto : ∀ α, 2 < t.grid α → t.isTorus α = true)
    (h : run fuel t L = .files map R v) (x : C4) (hx : ∀ m, x m < R m) (m : Dir) (hm : x m + 1 = R m) (hR : 1 < R m) :
    Linked t (map (lexRank R x)) (map (lexRank R (Function.update x m 0))) := by
  obtain ⟨w, rfl, _, gg, _, hh, _⟩ := run_files hg hL hf h
  have he := exact_of_hosts hh
  have hp := proper_setFromWay w
  have hy : ∀ n, Function.update x m 0 n < R n := by
    intro n
    by_cases hn : n = m
    · subst hn; simp; omega
    · rw [Function.update_of_ne hn]; exact hx n
  obtain ⟨b1, e1⟩ := read_lexRank hp he hx
  obtain ⟨b2, e2⟩ := read_lexRank hp he hy
  dsimp only
  set c := (createMapping t R (setFromWay w)).read (lexRank R x)
  set c' := (createMapping t R (setFromWay w)).read (lexRank R (Function.update x m 0))
  have q1 := congrFun e1 m
  have q2 := congrFun e2 m
  rw [Function.update_self] at q2
  unfold rankPos at q1 q2
  obtain ⟨α, hα, s1, s3, s2⟩ := rankCoord_wrap (g := t.grid) (c := c) (c' := c') (l := setFromWay w m) (hp.nodup m) (fun α _ => b1 α)
    (fun α _ => b2 α) (fun α _ => hev α) (by rw [← he m]; exact hR) false (by rw [q1, ← he m]; exact hm) q2
  refine ⟨α, ?_, ?_⟩
  · intro β hβ
    obtain ⟨n, hn⟩ := hp.ex β
    by_cases hnm : n = m
    · subst hnm; exact s2 β hn hβ
    · refine rankCoord_inj (g := t.grid) (l := setFromWay w n) (fun α _ => b1 α) (fun α _ => b2 α) false ?_ β hn
      have q1 := congrFun e1 n
      have q2 := congrFun e2 n
      rw [Function.update_of_ne hnm] at q2
      unfold rankPos at q1 q2
      rw [q1, q2]
  · by_cases h2 : 2 < t.grid α
    · exact .inr (.inr ⟨hto α h2, s1⟩)
    · omega

end

/-- the built-in blocks satisfy the hypotheses of the theorems above -/
theorem builtin_ok {n : Nat} {t : Torus} (h : findTorus n = some t) : t.N = n ∧ (∀ α, 0 < t.grid α) ∧
    (∀ α, t.grid α = 1 ∨ t.grid α % 2 = 0) ∧ ∀ α, 2 < t.grid α → t.isTorus α = true := by
  unfold findTorus at h
  split at h
  · rename_i hn; subst hn; injection h with h; subst h; decide
  · split at h
    · rename_i hn; subst hn; injection h with h; subst h; decide
    · split at h
      · rename_i hn; subst hn; injection h with h; subst h; decide
      · split at h
        · rename_i hn; subst hn; injection h with h; subst h; decide
        · split at h
          · rename_i hn; subst hn; injection h with h; subst h; decide
          · split at h
            · rename_i hn; subst hn; injection h with h; subst h; decide
            · cases h

/-- C85 for the built-in blocks: neighbours on the periodic lattice of ranks are always joined by a link of the machine. -/
theorem C85_builtin_neighbours_are_linked {n : Nat} {t : Torus} (ht : findTorus n = some t) {L : C4} (hL : ∀ m, 0 < L m) {fuel : Nat}
    (hf : 4 ^ (factorize n).length < fuel) {map : Nat → C5} {R : C4} {v : Option Dir} (h : run fuel t L = .files map R v)
    (x : C4) (hx : ∀ m, x m < R m) (m : Dir) (hR : 1 < R m) :
    Linked t (map (lexRank R x)) (map (lexRank R (Function.update x m ((x m + 1) % R m)))) := by
  obtain ⟨hN, hg, hev, hto⟩ := builtin_ok ht
  rw [← hN] at hf
  have hxm := hx m
  by_cases hm : x m + 1 < R m
  · rw [Nat.mod_eq_of_lt hm]
    obtain ⟨α, h1, h2⟩ := C85_consecutive_ranks_on_consecutive_nodes hg hL hf h x hx m hm
    exact ⟨α, h1, by rcases h2 with h2 | h2 <;> simp [h2]⟩
  · have e : x m + 1 = R m := by omega
    rw [e, Nat.mod_self]
    exact C85_first_and_last_rank_are_linked hg hL hf hev hto h x hx m e hR

/-- a machine of eight nodes without closed directions, as can be described at the prompt -/
def openTorus : Torus := { grid := ![4, 1, 1, 1, 2], isTorus := fun _ => false }

/-- the files written, if any -/
def Outcome.get? : Outcome → Option ((Nat → C5) × C4 × Option Dir)
  | .files m R v => some (m, R, v)
  | _ => none

theorem openTorus_files : ∃ q, (run 100 openTorus ![32, 2, 2, 2]).get? = some q ∧ q.2.1 = ![8, 1, 1, 1] ∧ q.1 0 = ![3, 0, 0, 0, 0] ∧ q.1 7 = ![0, 0, 0, 0, 0] := by
  have h : ((run 100 openTorus ![32, 2, 2, 2]).get?.map fun q => (q.2.1, q.1 0, q.1 7)) = some (![8, 1, 1, 1], ![3, 0, 0, 0, 0], ![0, 0, 0, 0, 0]) := by
    decide +kernel
  cases hq : (run 100 openTorus ![32, 2, 2, 2]).get? with
  | none => rw [hq] at h; cases h
  | some q =>
    rw [hq] at h
    simp only [Option.map_some, Option.some.injEq, Prod.mk.injEq] at h
    exact ⟨q, rfl, h.1, h.2.1, h.2.2⟩

/-- C85, violated for a described machine: two torus directions are given to a lattice direction without asking that they close, and the first and the
last rank are far apart. -/
theorem C85_violated_on_open_torus : ∃ map R v, run 100 openTorus ![32, 2, 2, 2] = .files map R v ∧ R 0 = 8 ∧
    ¬ Linked openTorus (map (lexRank R ![7, 0, 0, 0])) (map (lexRank R (Function.update ![7, 0, 0, 0] 0 0))) := by
  obtain ⟨⟨m, R, v⟩, h, hR, h0, h7⟩ := openTorus_files
  have : run 100 openTorus ![32, 2, 2, 2] = .files m R v := by
    cases hq : run 100 openTorus ![32, 2, 2, 2] with
    | files a b c => rw [hq] at h; simp only [Outcome.get?, Option.some.injEq, Prod.mk.injEq] at h; rw [h.1, h.2.1, h.2.2]
    | _ => rw [hq] at h; cases h
  dsimp only at hR h0 h7
  refine ⟨m, R, v, this, by rw [hR]; rfl, ?_⟩
  have l7 : lexRank R ![7, 0, 0, 0] = 7 := by rw [hR]; rfl
  have l0 : lexRank R (Function.update ![7, 0, 0, 0] 0 0) = 0 := by rw [hR]; simp [lexRank]
  rw [l7, l0, h7, h0]
  rintro ⟨α, h1, h2⟩
  by_cases ha : α = 0
  · subst ha; simp [openTorus] at h2
  · exact absurd (h1 0 (fun h => ha h.symm)) (by decide)

/-! ## C86 -/

/-- C86: given a lattice that can be divided as asked and a machine of at least two nodes, the program ends: either it writes the files for an
admissible grid hosted by the machine that no other hosted admissible grid improves, or it finds none and there is none. What is missing: grids for
which the only distribution gives all the torus directions to the last lattice direction are not considered (see the violation below). -/
theorem C86_no_better_grid_partial (t : Torus) (L : C4) (fuel : Nat) (hg : ∀ α, 0 < t.grid α) (hL : ∀ m, 0 < L m) (h2 : 1 < t.N)
    (hV : t.N ∣ L 0 * L 1 * L 2 * L 3) (h32 : 32 ∣ L 0 * L 1 * L 2 * L 3 / t.N) (hf : 4 ^ (factorize t.N).length < fuel) :
    (∃ map R v, run fuel t L = .files map R v ∧ GoodGrid L t.N R ∧ (∃ σ, Hosts t R σ) ∧
      ∀ R', GoodGrid L t.N R' → (∃ σ, Hosts t R' σ ∧ ∃ α, σ α ≠ 3) → NotWorse L R R') ∨
    (run fuel t L = .divByZero ∧ ∀ R', GoodGrid L t.N R' → ¬ ∃ σ, Hosts t R' σ ∧ ∃ α, σ α ≠ 3) := by
  rcases hm : mkLister L t.N with _ | P
  · unfold mkLister at hm
    simp only at hm
    rw [if_neg (by simpa using Nat.mod_eq_zero_of_dvd hV), if_neg (by simpa using Nat.mod_eq_zero_of_dvd h32)] at hm
    cases hm
  · have hs := mkLister_spec hm hL
    have hne : P.facts ≠ [] := fun e => by have := hs.2.2.2.2.2.1 e; omega
    rcases run_spec fuel hg hL hm hne hf with h | ⟨R, w, e, g, _, hh, b⟩
    · exact .inr h
    · exact .inl ⟨_, R, _, e, g, ⟨_, hh⟩, b⟩

/-- C86: every admissible grid is proposed once and only once. -/
theorem C86_every_grid_is_listed_once (t : Torus) (L : C4) (fuel : Nat) {P : Lister} (hL : ∀ m, 0 < L m) (hm : mkLister L t.N = some P)
    (hf : 4 ^ (factorize t.N).length < fuel) :
    ∃ l best, mainLoop t P fuel 0 [] none = some (l, best) ∧ l.Nodup ∧ ∀ R, R ∈ l ↔ GoodGrid L t.N R := by
  obtain ⟨eL, hp, hd, pr, len, _, cs⟩ := mkLister_spec hm hL
  have hnc : P.ncombo ≤ 4 ^ (factorize t.N).length := Nat.pow_le_pow_right (by decide) len
  have hpos : 0 < P.ncombo := Nat.pow_pos (by decide)
  obtain ⟨l, e, nd, hl⟩ := mainLoop_spec t P fuel 0 [] hpos (aligned_zero P) (.inr (by omega)) (by simp) (by simp) (by omega)
  exact ⟨l, _, e, nd, fun R => (hl R).trans (listed_iff hm hL R)⟩

theorem vdir_loop (LL : C4) : ∀ (l : List Dir) (v0 : Option Dir),
    let r := l.foldl (fun v mu => if (decide (LL mu % 4 = 0) && (match v with
      | none => true
      | some w => decide (LL mu > LL w))) = true then some mu else v) v0
    (∀ w, r = some w → (v0 = some w ∨ (w ∈ l ∧ LL w % 4 = 0)) ∧ (∀ m ∈ l, LL m % 4 = 0 → LL m ≤ LL w) ∧ ∀ u, v0 = some u → LL u ≤ LL w) ∧
    (r = none → v0 = none ∧ ∀ m ∈ l, LL m % 4 ≠ 0)
  | [], v0 => by
    refine ⟨?_, fun h => ⟨h, by simp⟩⟩
    intro w h
    refine ⟨.inl h, by simp, ?_⟩
    intro u hu
    simp only [List.foldl_nil] at h
    rw [hu] at h; injection h with h; rw [h]
  | m :: l, v0 => by
    intro r
    by_cases hc : (decide (LL m % 4 = 0) && (match v0 with
      | none => true
      | some w => decide (LL m > LL w))) = true
    · obtain ⟨i1, i2⟩ := vdir_loop LL l (some m)
      have hr : r = l.foldl (fun v mu => if (decide (LL mu % 4 = 0) && (match v with
        | none => true
        | some w => decide (LL mu > LL w))) = true then some mu else v) (some m) := by
        show List.foldl _ _ _ = _
        rw [List.foldl_cons, if_pos hc]
      rw [hr]
      simp only [Bool.and_eq_true, decide_eq_true_eq] at hc
      refine ⟨?_, fun h => by have := (i2 h).1; cases this⟩
      intro w hw
      obtain ⟨a, b, c⟩ := i1 w hw
      have cm := c m rfl
      refine ⟨.inr ?_, ?_, ?_⟩
      · rcases a with a | a
        · injection a with a; subst a; exact ⟨by simp, hc.1⟩
        · exact ⟨by simp [a.1], a.2⟩
      · intro n hn hd
        rcases List.mem_cons.1 hn with rfl | hn
        · exact cm
        · exact b n hn hd
      · intro u hu
        rw [hu] at hc
        have := hc.2
        simp only [decide_eq_true_eq] at this
        omega
    · obtain ⟨i1, i2⟩ := vdir_loop LL l v0
      have hr : r = l.foldl (fun v mu => if (decide (LL mu % 4 = 0) && (match v with
        | none => true
        | some w => decide (LL mu > LL w))) = true then some mu else v) v0 := by
        show List.foldl _ _ _ = _
        rw [List.foldl_cons, if_neg hc]
      rw [hr]
      simp only [Bool.and_eq_true, decide_eq_true_eq] at hc
      refine ⟨?_, ?_⟩
      · intro w hw
        obtain ⟨a, b, c⟩ := i1 w hw
        refine ⟨?_, ?_, c⟩
        · rcases a with a | a
          · exact .inl a
          · exact .inr ⟨by simp [a.1], a.2⟩
        · intro n hn hd
          rcases List.mem_cons.1 hn with rfl | hn
          · cases hv : v0 with
            | none => rw [hv] at hc; exact absurd ⟨hd, rfl⟩ hc
            | some u =>
              rw [hv] at hc
              have := c u hv
              have : ¬ LL n > LL u := fun h => hc ⟨hd, by simpa using h⟩
              omega
          · exact b n hn hd
      · intro h
        obtain ⟨a, b⟩ := i2 h
        refine ⟨a, ?_⟩
        intro n hn hd
        rcases List.mem_cons.1 hn with rfl | hn
        · rw [a] at hc; exact hc ⟨hd, rfl⟩
        · exact b n hn hd

/-- C86: the virtually parallel direction written has a local size multiple of four, the largest of those that are. -/
theorem C86_virtual_direction {t : Torus} {L : C4} {fuel : Nat} {map : Nat → C5} {R : C4} {v : Option Dir} (hg : ∀ α, 0 < t.grid α)
    (hL : ∀ m, 0 < L m) (hf : 4 ^ (factorize t.N).length < fuel) (h : run fuel t L = .files map R v) :
    ∃ d, v = some d ∧ 4 ∣ L d / R d ∧ ∀ m, 4 ∣ L m / R m → L m / R m ≤ L d / R d := by
  obtain ⟨w, _, rfl, ⟨_, l, h1, m4, h4⟩, _⟩ := run_files hg hL hf h
  obtain ⟨i1, i2⟩ := vdir_loop (fun m => L m / R m) [0, 1, 2, 3] none
  have all : ∀ m : Dir, m ∈ [(0 : Dir), 1, 2, 3] := by decide
  cases hv : vdir (fun m => L m / R m) with
  | none =>
    have := (i2 hv).2 m4 (all m4)
    have hp : 0 < R m4 := by
      rcases Nat.eq_zero_or_pos (R m4) with z | z
      · have := (h1 m4).1; rw [z] at this; have := hL m4; omega
      · exact z
    have e : L m4 / R m4 = l m4 := by rw [← (h1 m4).1]; exact Nat.mul_div_cancel_left _ hp
    rw [e] at this
    omega
  | some d =>
    obtain ⟨a, b, _⟩ := i1 d hv
    refine ⟨d, rfl, ?_, ?_⟩
    · rcases a with a | a
      · cases a
      · exact Nat.dvd_of_mod_eq_zero a.2
    · intro m hm
      exact b m (all m) (Nat.mod_eq_zero_of_dvd hm)

/-- C86, violated: the built-in block of 64 nodes hosts a lattice of 2x2x2x256 with the grid 1x1x1x64, the program divides by zero instead. -/
theorem C86_violated_all_directions_to_the_last : findTorus 64 = some (.block 2 2 4 2) ∧ GoodGrid ![2, 2, 2, 256] 64 ![1, 1, 1, 64] ∧
    Hosts (.block 2 2 4 2) ![1, 1, 1, 64] (fun _ => 3) ∧ ∀ fuel, 4096 < fuel → run fuel (.block 2 2 4 2) ![2, 2, 2, 256] = .divByZero := by
  have hg : ∀ α, 0 < (Torus.block 2 2 4 2).grid α := by decide
  have hL : ∀ m, 0 < (![2, 2, 2, 256] : C4) m := by decide
  refine ⟨rfl, ⟨rfl, ![2, 2, 2, 4], by decide, 3, by decide⟩, ⟨by decide, by decide⟩, ?_⟩
  intro fuel hf
  have hl : 4 ^ (factorize (Torus.block 2 2 4 2).N).length = 4096 := by decide +kernel
  rcases C86_no_better_grid_partial (.block 2 2 4 2) ![2, 2, 2, 256] fuel hg hL (by decide) (by decide) (by decide) (by rw [hl]; exact hf) with h | h
  · exfalso
    obtain ⟨map, R, v, h, g, ⟨σ, hσ⟩, _⟩ := h
    obtain ⟨w, _, _, _, ⟨σ, hh, α, hα⟩, _⟩ := run_files hg hL (by rw [hl]; exact hf) h
    obtain ⟨hp, l, h1, _⟩ := g
    have r : ∀ m : Dir, m ≠ 3 → R m = 1 := by
      intro m hm
      have h2 := h1 m
      have e : (![2, 2, 2, 256] : C4) m = 2 := by fin_cases m <;> first | rfl | exact absurd rfl hm
      rw [e] at h2
      obtain ⟨q, hq⟩ := h2.2
      rw [hq] at h2
      have h3 : R m * q = 1 := by have := h2.1; rw [Nat.mul_left_comm] at this; omega
      exact Nat.eq_one_of_mul_eq_one_right h3
    have := hh.1 (σ α)
    rw [r _ hα] at this
    have hd : (Torus.block 2 2 4 2).grid α ∣ 1 := by
      rw [← this]
      exact Finset.dvd_prod_of_mem _ (by simp)
    have : ∀ α, ¬ (Torus.block 2 2 4 2).grid α ∣ 1 := by decide
    exact this α hd
  · exact h.1

/-- C86, violated: on a machine of one node the list of factors is empty and is read out of its bounds. -/
theorem C86_violated_single_node : run 10 { grid := fun _ => 1, isTorus := fun _ => true } ![8, 8, 8, 8] = .outOfBounds := by
  unfold run
  have h : mkLister ![8, 8, 8, 8] (Torus.N { grid := fun _ => 1, isTorus := fun _ => true }) =
      some { L := ![8, 8, 8, 8], facts := [], factorizeRank := true } := by
    unfold mkLister
    simp only [Torus.N, show factorize 1 = [] from rfl]
    simp
  rw [h]; rfl

/-! ## a concrete case: a closed machine of eight nodes and a lattice of 8x8x4x4 -/

/-- eight nodes, all directions closed -/
def closed8 : Torus := { grid := ![4, 1, 1, 1, 2], isTorus := fun _ => true }

example : ((run 100 closed8 ![8, 8, 4, 4]).get?.map fun q => (q.2.1, q.2.2)) = some (![2, 4, 1, 1], some 0) := by decide +kernel

example : (∀ α, 0 < closed8.grid α) ∧ 1 < closed8.N ∧ closed8.N ∣ 8 * 8 * 4 * 4 ∧
    32 ∣ 8 * 8 * 4 * 4 / closed8.N ∧ 4 ^ (factorize closed8.N).length < 100 ∧ (∀ α, closed8.grid α = 1 ∨ closed8.grid α % 2 = 0) ∧
    ∀ α, 2 < closed8.grid α → closed8.isTorus α = true := by decide +kernel

example : (∀ α, 0 < (Torus.block 2 2 4 2).grid α) ∧ 1 < (Torus.block 2 2 4 2).N ∧ (Torus.block 2 2 4 2).N ∣ 32 * 16 * 16 * 16 ∧
    32 ∣ 32 * 16 * 16 * 16 / (Torus.block 2 2 4 2).N ∧ 4 ^ (factorize (Torus.block 2 2 4 2).N).length < 5000 := by decide +kernel

end Nissa.Part
