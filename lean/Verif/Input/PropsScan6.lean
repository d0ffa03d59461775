import Verif.Input.PropsScan5
set_option linter.all false
namespace Nissa.Scan

/-! Geometry. -/

theorem read_geo_int {e : Env} {x : Asg} (h : Read e .geo x) {k : Kw}
    (hk : k ∈ [Kw.T, .LX, .LY, .LZ]) : ∃ n, x k = .int n := by
  simp only [List.mem_cons, List.not_mem_nil, or_false] at hk
  have hd : dflt .geo k = .int 4 ∧ tyOf .geo k = some .int := by
    rcases hk with rfl | rfl | rfl | rfl <;> exact ⟨rfl, rfl⟩
  rcases h k with h1 | ⟨_, ty, t, h1, h2⟩
  · exact ⟨4, by rw [h1, hd.1]⟩
  · rw [hd.2] at h1; injection h1 with h1; subst h1
    unfold accept at h2
    split at h2 <;> simp_all
    exact ⟨_, h2.symm⟩

theorem read_geo_other {e : Env} {x : Asg} (h : Read e .geo x) {k : Kw}
    (hk : k ∉ [Kw.T, .LX, .LY, .LZ]) : x k = dflt .geo k := by
  rcases h k with h1 | ⟨hL, ty, t, h1, h2⟩
  · exact h1
  · exfalso
    have := tyOf_mem h1
    simp only [table, List.mem_cons, List.not_mem_nil, or_false, Prod.mk.injEq] at this hk
    rcases this with h | h | h | h | h <;> simp_all

theorem eats_geoRow {e : Env} {k : Kw} {n : Int} (hk : k ∈ [Kw.T, .LX, .LY, .LZ, .L]) (o : Bool) :
    Eats e (· = .geo) (· = .geo) (geoRow o k (.int n))
      (write .geo fun a => if o then assign k (.int n) a else a) := by
  unfold geoRow
  cases o with
  | true =>
    rintro d _ rfl
    refine ⟨.geo, rfl, ?_⟩
    have hty : tyOf .geo k = some .int := by
      simp only [List.mem_cons, List.not_mem_nil, or_false] at hk
      rcases hk with rfl | rfl | rfl | rfl | rfl <;> rfl
    have hm : k ≠ .method := by rintro rfl; revert hk; decide
    simp only [if_true]
    exact scan_row d rfl hty hm rfl
  | false =>
    simp only [Bool.false_eq_true, if_false]
    exact eats_congr (eats_nil fun c h => h) fun d => (write_id _ d).symm

theorem ifk {o : Bool} {k j : Kw} {v : Val} {a : Asg} (hk : k ≠ .L) :
    (if o = true then assign k v a else a) j = if j = k then (if o = true then v else a j) else a j := by
  unfold assign
  rw [if_neg hk]
  cases o
  · simp
  · rfl

theorem ifL {o : Bool} {j : Kw} {v : Val} {a : Asg} (hj : j = .LX ∨ j = .LY ∨ j = .LZ) :
    (if o = true then assign .L v a else a) j = if o = true then v else a j := by
  unfold assign
  cases o
  · simp
  · simp [hj]

theorem ifL_other {o : Bool} {j : Kw} {v : Val} {a : Asg} (h1 : j ≠ .LX) (h2 : j ≠ .LY) (h3 : j ≠ .LZ) :
    (if o = true then assign .L v a else a) j = a j := by
  unfold assign
  cases o
  · simp
  · simp [h1, h2, h3]

theorem pick4 {full : Bool} {n : Int} :
    (if (full || decide (n ≠ 4)) = true then Val.int n else .int 4) = .int n := by
  by_cases h : n = 4
  · simp [h]
  · simp [h]

theorem eats_geo {e : Env} {full : Bool} {x : Asg} (h : Read e .geo x) :
    ∃ F : Asg → Asg, F (dflt .geo) = x ∧ Eats e Any Any (geoStr full x)
      (fun d => { d with geo := F d.geo }) := by
  obtain ⟨t, ht⟩ := read_geo_int h (k := .T) (by decide)
  obtain ⟨a, ha⟩ := read_geo_int h (k := .LX) (by decide)
  obtain ⟨b, hb⟩ := read_geo_int h (k := .LY) (by decide)
  obtain ⟨c, hc⟩ := read_geo_int h (k := .LZ) (by decide)
  have e4 : ∀ n : Int, (decide (Val.int n ≠ .int 4)) = decide (n ≠ 4) := by intro n; simp
  have eq2 : ∀ n m : Int, (decide (Val.int n = .int m)) = decide (n = m) := by intro n m; simp
  have hx : ∀ G : Asg, G .T = .int t → G .LX = .int a → G .LY = .int b → G .LZ = .int c →
      (∀ k, k ∉ [Kw.T, .LX, .LY, .LZ] → G k = dflt .geo k) → G = x := by
    intro G h1 h2 h3 h4 h5
    funext k
    by_cases hk : k ∈ [Kw.T, .LX, .LY, .LZ]
    · simp only [List.mem_cons, List.not_mem_nil, or_false] at hk
      rcases hk with rfl | rfl | rfl | rfl
      · rw [h1, ht]
      · rw [h2, ha]
      · rw [h3, hb]
      · rw [h4, hc]
    · rw [h5 k hk, read_geo_other h hk]
  have dT : dflt .geo .T = .int 4 := rfl
  have dX : dflt .geo .LX = .int 4 := rfl
  have dY : dflt .geo .LY = .int 4 := rfl
  have dZ : dflt .geo .LZ = .int 4 := rfl
  unfold geoStr
  simp only [ht, ha, hb, hc, e4, eq2]
  by_cases hp : (full || decide (a ≠ 4) || decide (b ≠ 4) || decide (c ≠ 4) || decide (t ≠ 4)) = true
  · rw [if_pos hp]
    have s0 : Eats e Any (· = .geo) [.kw .geometry] (fun d => d) :=
      eats_header (by decide) (by decide) (fun d => rfl)
    have s1 := eats_geoRow (e := e) (k := .T) (n := t) (by decide) (full || decide (t ≠ 4))
    by_cases hL : (decide (a = b) && decide (a = c)) = true
    · have s2 := eats_geoRow (e := e) (k := .L) (n := a) (by decide)
        (full || (decide (a ≠ 4) || decide (b ≠ 4) || decide (c ≠ 4)))
      simp only [hL, if_true]
      refine ⟨fun g => (fun x : Asg => if (full || (decide (a ≠ 4) || decide (b ≠ 4) || decide (c ≠ 4))) = true
          then assign .L (.int a) x else x)
          ((fun x : Asg => if (full || decide (t ≠ 4)) = true then assign .T (.int t) x else x) g), ?_,
        eats_congr (eats_weak (eats_append (eats_append s0 s1) s2) (fun c h => h)
        (fun c _ => trivial)) fun d => by simp only [write]⟩
      simp only [Bool.and_eq_true, decide_eq_true_eq] at hL
      obtain ⟨rfl, rfl⟩ := hL
      have o1 : (full || (decide (a ≠ 4) || decide (a ≠ 4) || decide (a ≠ 4))) = (full || decide (a ≠ 4)) := by
        cases full <;> cases decide (a ≠ 4) <;> rfl
      rw [o1]
      clear s0 s1 s2 o1 hp
      refine hx _ ?_ ?_ ?_ ?_ ?_ <;> dsimp only
      · rw [ifL_other (by decide) (by decide) (by decide), ifk (by decide), dT, if_pos rfl, pick4]
      · rw [ifL (by decide), ifk (by decide), if_neg (show Kw.LX ≠ .T by decide), dX, pick4]
      · rw [ifL (by decide), ifk (by decide), if_neg (show Kw.LY ≠ .T by decide), dY, pick4]
      · rw [ifL (by decide), ifk (by decide), if_neg (show Kw.LZ ≠ .T by decide), dZ, pick4]
      · intro k hk
        simp only [List.mem_cons, List.not_mem_nil, or_false, not_or] at hk
        rw [ifL_other hk.2.1 hk.2.2.1 hk.2.2.2, ifk (by decide), if_neg hk.1]
    · have s2 := eats_geoRow (e := e) (k := .LX) (n := a) (by decide) (full || decide (a ≠ 4))
      have s3 := eats_geoRow (e := e) (k := .LY) (n := b) (by decide) (full || decide (b ≠ 4))
      have s4 := eats_geoRow (e := e) (k := .LZ) (n := c) (by decide) (full || decide (c ≠ 4))
      simp only [hL, if_false]
      refine ⟨fun g => (fun x : Asg => if (full || decide (c ≠ 4)) = true then assign .LZ (.int c) x else x)
          ((fun x : Asg => if (full || decide (b ≠ 4)) = true then assign .LY (.int b) x else x)
          ((fun x : Asg => if (full || decide (a ≠ 4)) = true then assign .LX (.int a) x else x)
          ((fun x : Asg => if (full || decide (t ≠ 4)) = true then assign .T (.int t) x else x) g))), ?_,
        eats_congr (eats_weak (eats_append (eats_append s0 s1)
        (eats_append (eats_append s2 s3) s4)) (fun c h => h)
        (fun c _ => trivial)) fun d => by simp only [write]⟩
      clear hL hp s0 s1 s2 s3 s4
      refine hx _ ?_ ?_ ?_ ?_ ?_ <;> dsimp only
      · rw [ifk (by decide), ifk (by decide), ifk (by decide), ifk (by decide), if_neg (show Kw.T ≠ .LZ by decide), if_neg (show Kw.T ≠ .LY by decide), if_neg (show Kw.T ≠ .LX by decide), if_pos (show Kw.T = .T by rfl), dT, pick4]
      · rw [ifk (by decide), ifk (by decide), ifk (by decide), ifk (by decide), if_neg (show Kw.LX ≠ .LZ by decide), if_neg (show Kw.LX ≠ .LY by decide), if_pos (show Kw.LX = .LX by rfl), if_neg (show Kw.LX ≠ .T by decide), dX, pick4]
      · rw [ifk (by decide), ifk (by decide), ifk (by decide), ifk (by decide), if_neg (show Kw.LY ≠ .LZ by decide), if_pos (show Kw.LY = .LY by rfl), if_neg (show Kw.LY ≠ .LX by decide), if_neg (show Kw.LY ≠ .T by decide), dY, pick4]
      · rw [ifk (by decide), ifk (by decide), ifk (by decide), ifk (by decide), if_pos (show Kw.LZ = .LZ by rfl), if_neg (show Kw.LZ ≠ .LY by decide), if_neg (show Kw.LZ ≠ .LX by decide), if_neg (show Kw.LZ ≠ .T by decide), dZ, pick4]
      · intro k hk
        simp only [List.mem_cons, List.not_mem_nil, or_false, not_or] at hk
        rw [ifk (by decide), ifk (by decide), ifk (by decide), ifk (by decide), if_neg hk.2.2.2,
          if_neg hk.2.2.1, if_neg hk.2.1, if_neg hk.1]
  · simp only [Bool.or_eq_true, not_or, Bool.not_eq_true, decide_eq_false_iff_not, ne_eq, not_not] at hp
    obtain ⟨⟨⟨⟨rfl, rfl⟩, rfl⟩, rfl⟩, rfl⟩ := hp
    refine ⟨fun a => a, hx _ rfl rfl rfl rfl (fun _ _ => rfl), ?_⟩
    simp [geoRow]
    exact eats_nil fun c _ => trivial

/-- All the parameters can be printed without loss. -/
structure GoodDriver (e : Env) (full : Bool) (d : Driver) : Prop where
  tag : noQuote d.tag = true
  geo : Read e .geo d.geo
  theory : ∀ t ∈ d.theories, GoodTheory e full t
  meson : ∀ x ∈ d.mesons, Good e full .meson x
  zumba : ∀ x ∈ d.zumbas, Good e full .zumba x
  elle : ∀ x ∈ d.elles, Good e full .elle x
  plaq : ∀ m ∈ d.plaqs, Good e full .plaq m.own ∧ GoodSmooth e full m.smooth
  top : ∀ m ∈ d.tops, Good e full .top m.own ∧ GoodSmooth e full m.smooth
  luppoli : d.luppolis = []
  run : Good e full .run d.run
  evol : d.analysis = false → Good e full .evol d.evol
  pseudo : full = false → d.evol .nPseudoFerms = dflt .evol .nPseudoFerms ∨ nonstd .evol d.evol = true
  quen : Good e full .quen d.quen
  conf : Good e full .conf d.conf
  ana : d.analysis = true → d.force = false ∧ d.evol = dflt .evol ∧ d.quen = dflt .quen ∧
    d.conf = dflt .conf ∧ d.confList ≠ [] ∧ ∀ p ∈ d.confList, noQuote p = true ∧ e.glob p = some [p]
  evo : d.analysis = false → d.confList = []

theorem expand_self {e : Env} (l : List String) (h : ∀ p ∈ l, e.glob p = some [p]) :
    expand e l = some l := by
  induction l with
  | nil => rfl
  | cons p l ih =>
    rw [expand, h p (by simp), ih fun q hq => h q (by simp [hq])]
    rfl

theorem foldl_theories (l : List Theory) (d : Driver) :
    l.foldl (fun d x => { d with theories := d.theories ++ [x] }) d =
      { d with theories := d.theories ++ l } := by
  induction l generalizing d with
  | nil => simp
  | cons x l ih => rw [List.foldl_cons, ih]; simp

theorem foldl_mesons (l : List Asg) (d : Driver) :
    l.foldl (fun d x => { d with mesons := d.mesons ++ [x] }) d =
      { d with mesons := d.mesons ++ l } := by
  induction l generalizing d with
  | nil => simp
  | cons x l ih => rw [List.foldl_cons, ih]; simp

theorem foldl_zumbas (l : List Asg) (d : Driver) :
    l.foldl (fun d x => { d with zumbas := d.zumbas ++ [x] }) d =
      { d with zumbas := d.zumbas ++ l } := by
  induction l generalizing d with
  | nil => simp
  | cons x l ih => rw [List.foldl_cons, ih]; simp

theorem foldl_elles (l : List Asg) (d : Driver) :
    l.foldl (fun d x => { d with elles := d.elles ++ [x] }) d =
      { d with elles := d.elles ++ l } := by
  induction l generalizing d with
  | nil => simp
  | cons x l ih => rw [List.foldl_cons, ih]; simp

theorem foldl_plaqs (l : List GMeas) (d : Driver) :
    l.foldl (fun d x => { d with plaqs := d.plaqs ++ [x] }) d =
      { d with plaqs := d.plaqs ++ l } := by
  induction l generalizing d with
  | nil => simp
  | cons x l ih => rw [List.foldl_cons, ih]; simp

theorem foldl_tops (l : List GMeas) (d : Driver) :
    l.foldl (fun d x => { d with tops := d.tops ++ [x] }) d =
      { d with tops := d.tops ++ l } := by
  induction l generalizing d with
  | nil => simp
  | cons x l ih => rw [List.foldl_cons, ih]; simp

/-- Printing and scanning. -/
theorem scan_print {e : Env} {full : Bool} {d : Driver} (h : GoodDriver e full d) :
    scan e (print full d) = some d := by
  obtain ⟨G, hG, s2⟩ := eats_geo (e := e) (full := full) h.geo
  have s1 : Eats e Any Any (if full || decide (d.tag ≠ "") then [.kw .tag, .eq, .val (.text d.tag)] else [])
      (fun d' => { d' with tag := if full || decide (d.tag ≠ "") then d.tag else d'.tag }) := by
    by_cases hp : (full || decide (d.tag ≠ "")) = true
    · simp only [hp, if_true]
      intro d' c _
      refine ⟨.global, trivial, ?_⟩
      apply step_special (c0 := .global) (resolve_global (by decide)) (by decide) rfl (by decide)
        (by decide) (by decide)
      simp only [special, h.tag, if_true]
    · simp only [hp, if_false]
      exact eats_nil fun c _ => trivial
  have s3 := eats_flatMap (e := e) (P := Any) (theoryStr full)
    (fun t d' => { d' with theories := d'.theories ++ [t] }) d.theories (fun t ht => eats_theory (h.theory t ht))
  have s4 := eats_flatMap (e := e) (P := Any) (measStr full .measMesonCorrs .meson)
    (fun t d' => { d' with mesons := d'.mesons ++ [t] }) d.mesons (fun t ht => eats_meson (h.meson t ht))
  have s5 := eats_flatMap (e := e) (P := Any) (measStr full .measZumba .zumba)
    (fun t d' => { d' with zumbas := d'.zumbas ++ [t] }) d.zumbas (fun t ht => eats_zumba (h.zumba t ht))
  have s6 := eats_flatMap (e := e) (P := Any) (measStr full .measElleSettete .elle)
    (fun t d' => { d' with elles := d'.elles ++ [t] }) d.elles (fun t ht => eats_elle (h.elle t ht))
  have s7 := eats_flatMap (e := e) (P := Any) (gmeasStr full .measPlaqPol .plaq)
    (fun t d' => { d' with plaqs := d'.plaqs ++ [t] }) d.plaqs
    (fun t ht => eats_plaq (h.plaq t ht).1 (h.plaq t ht).2)
  have s8 := eats_flatMap (e := e) (P := Any) (gmeasStr full .measTop .top)
    (fun t d' => { d' with tops := d'.tops ++ [t] }) d.tops
    (fun t ht => eats_top (h.top t ht).1 (h.top t ht).2)
  obtain ⟨R, hR, s9⟩ := eats_blkStr (e := e) (full := full) (h := .run) (b := .run) (x := d.run) (c := .run)
    (by decide) (by decide) (fun d => rfl) rfl h.run (fun _ k hk => Or.inl hk)
  have hpre := eats_append (eats_append (eats_append (eats_append (eats_append (eats_append (eats_append
    (eats_append s1 s2) s3) s4) s5) s6) s7) s8) s9
  have fin : ∀ (toks : List Tok) (f : Driver → Driver), Eats e Any Any toks f → f newDriver = d →
      scan e toks = some d := by
    intro toks f hf hd
    obtain ⟨c, _, hc⟩ := hf newDriver .global trivial
    unfold scan
    rw [hc, hd]
    rfl
  have htag : (if full || decide (d.tag ≠ "") then d.tag else "") = d.tag := by
    split
    · rfl
    · rename_i hc; by_contra hn; simp [Ne.symm hn] at hc
  have hrun : (if (full || nonstd .run d.run) = true then R (dflt .run) else dflt .run) = d.run := by
    split
    · exact hR
    · rename_i hc
      simp only [Bool.or_eq_true, not_or, Bool.not_eq_true] at hc
      obtain ⟨rfl, hc⟩ := hc
      exact (not_nonstd_dflt h.run (fun k hk => Or.inl hk) hc).symm
  have hlup := h.luppoli
  unfold print runStr
  cases hana : d.analysis with
  | true =>
    obtain ⟨a1, a2, a3, a4, a5, a6⟩ := h.ana hana
    have s10 : Eats e Any Any (.kw .analysis :: [.kw .confList, .eq, .texts d.confList])
        (fun d' => { d' with analysis := true, confList := d'.confList ++ d.confList }) := by
      intro d' c _
      refine ⟨.global, trivial, ?_⟩
      have hq : ¬ (d.confList = [] ∨ ¬ (d.confList.all noQuote = true)) := by
        rintro (h1 | h1)
        · exact a5 h1
        · exact h1 (List.all_eq_true.2 fun p hp => (a6 p hp).1)
      have h1 : stepAll e ⟨d', c, .idle⟩ (.kw .analysis) = some ⟨d', .global, .conf⟩ := by
        simp only [stepAll, step, stepKw, resolve_global (show Kw.analysis ∈ globals by decide), and_self,
          if_true]
      have h2 : stepAll e ⟨d', .global, .conf⟩ (.kw .confList) = some ⟨d', .global, .key .global .confList⟩ := rfl
      have h3 : stepAll e ⟨d', .global, .key .global .confList⟩ .eq = some ⟨d', .global, .val .global .confList⟩ := rfl
      have h4 : stepAll e ⟨d', .global, .val .global .confList⟩ (.texts d.confList) =
          some ⟨{ d' with analysis := true, confList := d'.confList ++ d.confList }, .global, .idle⟩ := by
        simp only [stepAll, if_neg hq, expand_self d.confList (fun p hp => (a6 p hp).2)]
      simp only [scanFrom, h1, h2, h3, h4]
    simp only [if_true, ne_eq, a5, not_false_eq_true]
    refine fin _ _ (eats_append hpre s10) ?_
    simp only [foldl_theories, foldl_mesons, foldl_zumbas, foldl_elles, foldl_plaqs, foldl_tops]
    have hw : ∀ d' : Driver, (if (full || nonstd .run d.run) = true then write .run R d' else d') =
        { d' with run := if (full || nonstd .run d.run) = true then R d'.run else d'.run } := by
      intro d'; split <;> rfl
    simp only [hw]
    simp only [newDriver, List.nil_append, hG, htag, hrun]
    cases d
    simp_all
  | false =>
    have a7 := h.evo hana
    have s10 : Eats e Any Any (if full || d.force then
          [.kw .forceUnquenched, .eq, .val (.int (if d.force then 1 else 0))] else [])
        (fun d' => { d' with force := if full || d.force then d.force else d'.force }) := by
      by_cases hp : (full || d.force) = true
      · simp only [hp, if_true]
        intro d' c _
        refine ⟨.global, trivial, ?_⟩
        apply step_special (c0 := .global) (resolve_global (by decide)) (by decide) rfl (by decide)
          (by decide) (by decide)
        simp only [special]
        cases d.force <;> rfl
      · simp only [hp, if_false]
        exact eats_nil fun c _ => trivial
    obtain ⟨E, hE, s11⟩ := eats_blkStr (e := e) (full := full) (h := .evolution) (b := .evol) (x := d.evol)
      (c := .evol) (by decide) (by decide) (fun d => rfl) rfl (h.evol hana) (by
        intro hf k hk
        by_cases hn : k = .nPseudoFerms
        · subst hn
          rcases h.pseudo hf with h1 | h1
          · exact Or.inr (Or.inl h1)
          · exact Or.inr (Or.inr h1)
        · left
          revert hk hn k
          decide +kernel)
    obtain ⟨Q, hQ, s12⟩ := eats_blkStr (e := e) (full := full) (h := .quenchedEvolution) (b := .quen) (x := d.quen)
      (c := .quen) (by decide) (by decide) (fun d => rfl) rfl h.quen (fun _ k hk => Or.inl hk)
    obtain ⟨C, hC, s13⟩ := eats_blkStr (e := e) (full := full) (h := .gaugeConf) (b := .conf) (x := d.conf)
      (c := .conf) (by decide) (by decide) (fun d => rfl) rfl h.conf (fun _ k hk => Or.inl hk)
    simp only [Bool.false_eq_true, if_false]
    have s11' := eats_congr (g := fun d' : Driver => { d' with
        analysis := if (full || nonstd .evol d.evol) = true then false else d'.analysis
        evol := if (full || nonstd .evol d.evol) = true then E d'.evol else d'.evol }) s11
      (by intro d'; split <;> rfl)
    have s12' := eats_congr (g := fun d' : Driver => { d' with
        analysis := if (full || nonstd .quen d.quen) = true then false else d'.analysis
        quen := if (full || nonstd .quen d.quen) = true then Q d'.quen else d'.quen }) s12
      (by intro d'; split <;> rfl)
    have s13' := eats_congr (g := fun d' : Driver => { d' with
        analysis := if (full || nonstd .conf d.conf) = true then false else d'.analysis
        conf := if (full || nonstd .conf d.conf) = true then C d'.conf else d'.conf }) s13
      (by intro d'; split <;> rfl)
    refine fin _ _ (eats_append hpre (eats_append (eats_append (eats_append s10 s11') s12') s13')) ?_
    simp only [foldl_theories, foldl_mesons, foldl_zumbas, foldl_elles, foldl_plaqs, foldl_tops]
    have hw : ∀ d' : Driver, (if (full || nonstd .run d.run) = true then write .run R d' else d') =
        { d' with run := if (full || nonstd .run d.run) = true then R d'.run else d'.run } := by
      intro d'; split <;> rfl
    have hev : (if (full || nonstd .evol d.evol) = true then E (dflt .evol) else dflt .evol) = d.evol := by
      split
      · exact hE
      · rename_i hc
        simp only [Bool.or_eq_true, not_or, Bool.not_eq_true] at hc
        obtain ⟨rfl, hc⟩ := hc
        refine (not_nonstd_dflt (h.evol hana) (fun k hk => ?_) hc).symm
        by_cases hn : k = .nPseudoFerms
        · subst hn
          rcases h.pseudo rfl with h1 | h1
          · exact Or.inr h1
          · rw [hc] at h1; cases h1
        · left
          revert hk hn k
          decide +kernel
    have hqu : (if (full || nonstd .quen d.quen) = true then Q (dflt .quen) else dflt .quen) = d.quen := by
      split
      · exact hQ
      · rename_i hc
        simp only [Bool.or_eq_true, not_or, Bool.not_eq_true] at hc
        obtain ⟨rfl, hc⟩ := hc
        exact (not_nonstd_dflt h.quen (fun k hk => Or.inl hk) hc).symm
    have hco : (if (full || nonstd .conf d.conf) = true then C (dflt .conf) else dflt .conf) = d.conf := by
      split
      · exact hC
      · rename_i hc
        simp only [Bool.or_eq_true, not_or, Bool.not_eq_true] at hc
        obtain ⟨rfl, hc⟩ := hc
        exact (not_nonstd_dflt h.conf (fun k hk => Or.inl hk) hc).symm
    have hfo : (if full || d.force then d.force else false) = d.force := by
      cases d.force <;> simp
    simp only [hw]
    simp only [newDriver, List.nil_append, hG, htag, hrun, hev, hqu, hco, hfo, ite_self]
    cases d
    simp_all
end Nissa.Scan
