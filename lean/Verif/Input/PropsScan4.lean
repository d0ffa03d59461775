import Verif.Input.PropsScan3
set_option linter.all false
namespace Nissa.Scan

/-! A theory. -/

/-- Blocks open while a theory is read. -/
def InTh : Ctx → Prop := fun c => c = .theory ∨ c = .topo ∨ c = .topoStout ∨ c = .quark ∨ c = .em ∨ c = .stout

/-- The same, the topological potential excluded. -/
def InTh' : Ctx → Prop := fun c => c = .theory ∨ c = .quark ∨ c = .em ∨ c = .stout

theorem step_header {e : Env} {d d' : Driver} {c c0 c1 : Ctx} {k : Kw} (hr : resolve c k = some c0)
    (hg : c0 ≠ .global) (hh : header c0 k d = some (d', c1)) :
    scanFrom e ⟨d, c, .idle⟩ [.kw k] = some ⟨d', c1, .idle⟩ := by
  have h1 : stepAll e ⟨d, c, .idle⟩ (.kw k) = some ⟨d', c1, .idle⟩ := by
    simp only [stepAll, step, stepKw, hr, hg, false_and, if_false, hh]
  simp only [scanFrom, h1]

theorem step_special {e : Env} {d d' : Driver} {c c0 c1 : Ctx} {k : Kw} {t : Tok}
    (hr : resolve c k = some c0) (hna : k ≠ .analysis) (hh : header c0 k d = none) (hi : k ∈ inner c0)
    (hm : k ≠ .method) (hcl : k ≠ .confList) (hs : special e c0 k t d = some (d', c1)) :
    scanFrom e ⟨d, c, .idle⟩ [.kw k, .eq, t] = some ⟨d', c1, .idle⟩ := by
  have h1 : stepAll e ⟨d, c, .idle⟩ (.kw k) = some ⟨d, c, .key c0 k⟩ := by
    simp only [stepAll, step, stepKw, hr, hna, and_false, if_false, hh]
  have h2 : stepAll e ⟨d, c, .key c0 k⟩ .eq = some ⟨d, c, .val c0 k⟩ := by
    simp only [stepAll, step, if_neg hm, if_true]
  have h3 : stepAll e ⟨d, c, .val c0 k⟩ t = some ⟨d', c1, .idle⟩ := by
    unfold stepAll
    split
    · rename_i heq; simp only [Pend.val.injEq] at heq; exact absurd heq.2 hcl
    · simp only [step, stepVal, if_pos hi, hs]
  simp only [scanFrom, h1, h2, h3]

/-- A set of parameters of a theory that is printed without loss. -/
structure GoodTheory (e : Env) (full : Bool) (t : Theory) : Prop where
  new : full = false → t ≠ newTheory
  own : Good e full .theory t.own
  off : t.topoKind = .none_ → t.topo = dflt .topo ∧ t.topoStout = dflt .stout
  ord : t.topoKind = .ordinary → t.topoStout = dflt .stout ∧ (∀ k, k ≠ .theta → t.topo k = dflt .topo k) ∧
    GoodLine e .topo t.topo .theta
  met : t.topoKind = .meta_ → Good e full .stout t.topoStout ∧
    (∀ k, k ∉ metaKeys → t.topo k = dflt .topo k) ∧ ∀ k ∈ metaKeys, GoodLine e .topo t.topo k
  kind : t.topoKind = .none_ ∨ t.topoKind = .ordinary ∨ t.topoKind = .meta_
  quark : ∀ q ∈ t.quarks, noQuote q.1 = true ∧ Good e full .quark q.2
  stout : Good e full .stout t.stout
  place : t.quarks = [] → (full = true ∨ t.topoKind ≠ .none_) → full = false ∧ t.stout = dflt .stout
  em : Good e full .em t.em
  emFlag : t.emFlag = true ∨ (full = false ∧ t.em = dflt .em)

theorem nonstd_dflt {b : Blk} (hb : b ≠ .em) : nonstd b (dflt b) = false := by
  unfold nonstd
  rw [List.any_eq_false]
  intro k _
  rw [differs_eq hb]
  simp

theorem nonstd_em_dflt : nonstd .em (dflt .em) = false := by decide +kernel

theorem eats_stout {e : Env} {full : Bool} {x : Asg} (h : Good e full .stout x) :
    Eats e InTh' InTh' (stoutStr full x)
      (modTh fun t => { t with stout := if full || nonstd .stout x then x else t.stout }) := by
  unfold stoutStr
  by_cases hp : (full || nonstd .stout x) = true
  · simp only [hp, if_true]
    intro d c hc
    refine ⟨.stout, by simp [InTh'], ?_⟩
    rw [show (Tok.kw Kw.stout :: rows full .stout x) = [Tok.kw .stout] ++ rows full .stout x from rfl,
      scanFrom_append, step_header (c0 := .theory)
        (d' := modTh (fun t => { t with stout := dflt .stout }) d) (c1 := .stout) _ (by decide) rfl,
      Option.bind_some, scan_blk rfl h]
    · simp only [write, modTh_comp, fill_good h]
    · rcases hc with rfl | rfl | rfl | rfl <;> decide +kernel
  · simp only [hp, if_false]
    exact eats_congr (eats_nil fun c h => h) fun d => (modTh_id _ (fun t => rfl) d).symm

theorem eats_em {e : Env} {full : Bool} {t : Theory} (h : Good e full .em t.em)
    (hf : t.emFlag = true ∨ (full = false ∧ t.em = dflt .em)) :
    Eats e InTh Any (emStr full t)
      (modTh fun u => { u with
        emFlag := if full || t.emFlag || nonstd .em t.em then true else u.emFlag
        em := if full || t.emFlag || nonstd .em t.em then t.em else u.em }) := by
  unfold emStr
  by_cases hp : (full || t.emFlag || nonstd .em t.em) = true
  · simp only [hp, if_true]
    intro d c hc
    refine ⟨.em, trivial, ?_⟩
    rw [show (Tok.kw Kw.bkgrdEMField :: rows full .em t.em) = [Tok.kw .bkgrdEMField] ++ rows full .em t.em from rfl,
      scanFrom_append, step_header (c0 := .theory)
        (d' := modTh (fun t => { t with emFlag := true, em := dflt .em }) d) (c1 := .em) _ (by decide) rfl,
      Option.bind_some, scan_blk rfl h]
    · simp only [write, modTh_comp, fill_good h]
    · rcases hc with rfl | rfl | rfl | rfl | rfl | rfl <;> decide +kernel
  · simp only [hp, if_false]
    exact eats_congr (eats_nil fun c h => trivial) fun d => (modTh_id _ (fun t => rfl) d).symm

theorem eats_quark {e : Env} {full : Bool} {q : String × Asg} (h1 : noQuote q.1 = true)
    (h2 : Good e full .quark q.2) :
    Eats e InTh (· = .quark) (quarkStr full q)
      (modTh fun t => { t with quarks := t.quarks ++ [q] }) := by
  intro d c hc
  refine ⟨.quark, rfl, ?_⟩
  unfold quarkStr
  rw [scanFrom_append, step_special (c0 := .theory)
    (d' := modTh (fun t => { t with quarks := t.quarks ++ [(q.1, dflt .quark)] }) d) (c1 := .quark)
    _ (by decide) rfl (by decide) (by decide) (by decide) (by simp only [special, h1, if_true]),
    Option.bind_some, scan_blk rfl h2]
  · simp only [write, modTh_comp, modLast_append, fill_good h2]
  · rcases hc with rfl | rfl | rfl | rfl | rfl | rfl <;> decide +kernel

theorem eats_quarks {e : Env} {full : Bool} (qs : List (String × Asg))
    (h : ∀ q ∈ qs, noQuote q.1 = true ∧ Good e full .quark q.2) (hne : qs ≠ []) :
    Eats e InTh InTh' (qs.flatMap (quarkStr full))
      (modTh fun t => { t with quarks := t.quarks ++ qs }) := by
  induction qs with
  | nil => exact absurd rfl hne
  | cons q qs ih =>
    rw [List.flatMap_cons]
    have hq := eats_quark (h q (by simp)).1 (h q (by simp)).2
    cases qs with
    | nil =>
      rw [List.flatMap_nil, List.append_nil]
      exact eats_weak hq (fun c h => h) (fun c h => by subst h; simp [InTh'])
    | cons q' qs =>
      refine eats_congr (eats_append (eats_weak hq (fun c h => h) (fun c h => by subst h; simp [InTh]))
        (ih (fun r hr => h r (List.mem_cons_of_mem _ hr)) (by simp))) ?_
      intro d
      simp only [modTh_comp, List.append_assoc, List.cons_append, List.nil_append]

/-- The topological potential. -/
theorem eats_topo {e : Env} {full : Bool} {t : Theory} (h : GoodTheory e full t) :
    Eats e (· = .theory) (fun c => if full || decide (t.topoKind ≠ .none_) then InTh c else c = .theory)
      (topoStr full t)
      (modTh fun u => { u with
        topoKind := if full || decide (t.topoKind ≠ .none_) then t.topoKind else u.topoKind
        topo := if full || decide (t.topoKind ≠ .none_) then t.topo else u.topo
        topoStout := if full || decide (t.topoKind ≠ .none_) then t.topoStout else u.topoStout }) := by
  unfold topoStr
  by_cases hp : (full || decide (t.topoKind ≠ .none_)) = true
  · simp only [hp, if_true]
    have hhead : Eats e (· = .theory) (· = .topo) [.kw .topoPotential, .eq, .kw t.topoKind]
        (modTh fun u => { u with topoKind := t.topoKind, topo := dflt .topo, topoStout := dflt .stout }) := by
      rintro d _ rfl
      refine ⟨.topo, rfl, ?_⟩
      apply step_special (c0 := .theory) (by decide +kernel) (by decide) rfl (by decide) (by decide)
        (by decide)
      have : t.topoKind ∈ [Kw.none_, .ordinary, .meta_] := by
        rcases h.kind with h | h | h <;> rw [h] <;> decide
      simp only [special, if_pos this]
    rcases h.kind with hk | hk | hk
    · obtain ⟨h1, h2⟩ := h.off hk
      simp only [hk, List.append_nil] at hhead ⊢
      rw [h1, h2]
      exact eats_weak hhead (fun c h => h) (fun c h => by subst h; simp [InTh])
    · obtain ⟨h1, h2, h3⟩ := h.ord hk
      simp only [hk] at hhead ⊢
      have hrow : Eats e (· = .topo) InTh (row true .topo t.topo .theta)
          (write .topo (fill true .topo t.topo [.theta])) := by
        rintro d _ rfl
        refine ⟨.topo, by simp [InTh], ?_⟩
        have := scan_rows (e := e) (c := .topo) (b := .topo) (full := true) (x := t.topo) rfl [.theta]
          (by intro k hk _; simp only [List.mem_cons, List.not_mem_nil, or_false] at hk; subst hk; exact h3) d
        simpa using this
      refine eats_congr (eats_append hhead hrow) ?_
      intro d
      have hfill : fill true .topo t.topo [.theta] (dflt .topo) = t.topo := by
        funext j
        rw [fill_apply _ (by decide)]
        by_cases hj : j = .theta
        · subst hj; simp [on]
        · rw [if_neg (by simp [hj]), h2 j hj]
      simp only [write, modTh_comp, hfill, h1]
    · obtain ⟨h1, h2, h3⟩ := h.met hk
      simp only [hk] at hhead ⊢
      have hrow : Eats e (· = .topo) (· = .topo) (metaKeys.flatMap (row true .topo t.topo))
          (write .topo (fill true .topo t.topo metaKeys)) := by
        rintro d _ rfl
        exact ⟨.topo, rfl, scan_rows rfl metaKeys (fun k hk _ => h3 k hk) d⟩
      have hst : Eats e (· = .topo) InTh (stoutStr full t.topoStout)
          (modTh fun u => { u with
            topoStout := if full || nonstd .stout t.topoStout then t.topoStout else u.topoStout }) := by
        unfold stoutStr
        by_cases hq : (full || nonstd .stout t.topoStout) = true
        · simp only [hq, if_true]
          rintro d _ rfl
          refine ⟨.topoStout, by simp [InTh], ?_⟩
          rw [show (Tok.kw Kw.stout :: rows full .stout t.topoStout) = [Tok.kw .stout] ++ rows full .stout t.topoStout from rfl,
            scanFrom_append, step_header (c0 := .topo)
              (d' := modTh (fun t => { t with topoStout := dflt .stout }) d) (c1 := .topoStout)
              (by decide +kernel) (by decide) rfl,
            Option.bind_some, scan_blk rfl h1]
          simp only [write, modTh_comp, fill_good h1]
        · simp only [hq, if_false]
          exact eats_congr (eats_nil fun c h => by subst h; simp [InTh])
            fun d => (modTh_id _ (fun t => rfl) d).symm
      refine eats_congr (eats_append hhead (eats_append hrow hst)) ?_
      intro d
      have hfill : fill true .topo t.topo metaKeys (dflt .topo) = t.topo := by
        funext j
        rw [fill_apply _ (by decide)]
        by_cases hj : j ∈ metaKeys
        · simp [hj, on]
        · rw [if_neg (by simp [hj]), h2 j hj]
      have hts : (if full || nonstd .stout t.topoStout then t.topoStout else dflt .stout) = t.topoStout := by
        split
        · rfl
        · rename_i hq
          simp only [Bool.or_eq_true, not_or, Bool.not_eq_true] at hq
          obtain ⟨rfl, hq⟩ := hq
          exact (not_nonstd_dflt h1 (fun k hk => Or.inl hk) hq).symm
      simp only [write, modTh_comp, hfill, hts]
  · simp only [hp, if_false]
    have hk : t.topoKind = .none_ := by
      by_contra hc; simp [hc] at hp
    simp only [hk, List.nil_append]
    exact eats_congr (eats_nil fun c h => by simpa using h)
      fun d => (modTh_id _ (fun t => rfl) d).symm

/-- A printed theory is read as the same theory. -/
theorem eats_theory {e : Env} {full : Bool} {t : Theory} (h : GoodTheory e full t) :
    Eats e Any Any (theoryStr full t) (fun d => { d with theories := d.theories ++ [t] }) := by
  have hst : full = false → nonstd .stout t.stout = false → t.stout = dflt .stout := by
    rintro rfl hq; exact not_nonstd_dflt h.stout (fun k hk => Or.inl hk) hq
  have hem : full = false → nonstd .em t.em = false → t.em = dflt .em := by
    rintro rfl hq; exact not_nonstd_dflt h.em (fun k hk => Or.inl hk) hq
  have hown : full = false → nonstd .theory t.own = false → t.own = dflt .theory := by
    rintro rfl hq; exact not_nonstd_dflt h.own (fun k hk => Or.inl hk) hq
  have hhdr : (full || theoryNonstd t) = true := by
    by_contra hc
    simp only [Bool.or_eq_true, not_or, Bool.not_eq_true, theoryNonstd, Bool.or_eq_false_iff,
      decide_eq_false_iff_not, not_not] at hc
    obtain ⟨rfl, ⟨⟨⟨⟨h1, h2⟩, ⟨h3, h4⟩, h5⟩, h6⟩, h7, h8⟩⟩ := hc
    apply h.new rfl
    obtain ⟨h9, h10⟩ := h.off h4
    have e1 := hown rfl h1
    have e2 := hst rfl h6
    have e3 := hem rfl h8
    cases t
    simp only at *
    subst e1 e2 e3 h2 h4 h7 h9 h10
    rfl
  unfold theoryStr
  rw [if_pos hhdr]
  have s1 : Eats e Any (· = .theory) [.kw .theory]
      (fun d => { d with theories := d.theories ++ [newTheory] }) :=
    eats_header (by decide) (by decide) (fun d => rfl)
  have s2 := eats_rows (c := .theory) rfl h.own
  have s3 := eats_topo h
  have s6 := eats_em h.em h.emFlag
  -- quarks and stout
  have s45 : Eats e (fun c => if full || decide (t.topoKind ≠ .none_) then InTh c else c = .theory) InTh
      (t.quarks.flatMap (quarkStr full) ++ stoutStr full t.stout)
      (modTh fun u => { u with quarks := u.quarks ++ t.quarks
                               stout := if full || nonstd .stout t.stout then t.stout else u.stout }) := by
    by_cases hq : t.quarks = []
    · rw [hq, List.flatMap_nil, List.nil_append]
      by_cases hp : (full || decide (t.topoKind ≠ .none_)) = true
      · obtain ⟨rfl, h2⟩ := h.place hq (by simpa using hp)
        have hns : nonstd .stout t.stout = false := by rw [h2]; exact nonstd_dflt (by decide)
        have : stoutStr false t.stout = [] := by unfold stoutStr; rw [hns]; rfl
        rw [this]
        simp only [hp, if_true, hns, Bool.or_false, List.append_nil]
        exact eats_congr (eats_nil fun c h => h) fun d => (modTh_id _ (fun t => rfl) d).symm
      · simp only [hp, if_false, List.append_nil]
        exact eats_congr (eats_weak (eats_stout h.stout) (fun c h => by simp at h; subst h; simp [InTh'])
          (fun c h => by rcases h with rfl | rfl | rfl | rfl <;> simp [InTh])) fun d => rfl
    · refine eats_congr (eats_append (eats_weak (eats_quarks t.quarks h.quark hq) ?_ (fun c h => h))
        (eats_weak (eats_stout h.stout) (fun c h => h)
          (fun c h => by rcases h with rfl | rfl | rfl | rfl <;> simp [InTh]))) ?_
      · intro c hc
        split at hc
        · exact hc
        · subst hc; simp [InTh]
      · intro d; simp only [modTh_comp]
  have hall := eats_append s1 (eats_append s2 (eats_append s3 (eats_append s45 s6)))
  simp only [List.append_assoc] at hall ⊢
  refine eats_congr hall ?_
  intro d
  simp only [write, modTh_comp]
  simp only [modTh, modLast_append]
  congr 2
  simp only [newTheory, fill_good h.own, List.nil_append, List.cons.injEq, and_true]
  have q1 : (if full || decide (t.topoKind ≠ .none_) then t.topoKind else Kw.none_) = t.topoKind := by
    split
    · rfl
    · rename_i hc; by_contra hn; simp [Ne.symm hn] at hc
  have q2 : (if full || decide (t.topoKind ≠ .none_) then t.topo else dflt .topo) = t.topo := by
    split
    · rfl
    · rename_i hc
      exact ((h.off (by by_contra hn; simp [hn] at hc)).1).symm
  have q3 : (if full || decide (t.topoKind ≠ .none_) then t.topoStout else dflt .stout) = t.topoStout := by
    split
    · rfl
    · rename_i hc
      exact ((h.off (by by_contra hn; simp [hn] at hc)).2).symm
  have q4 : (if full || nonstd .stout t.stout then t.stout else dflt .stout) = t.stout := by
    split
    · rfl
    · rename_i hc
      simp only [Bool.or_eq_true, not_or, Bool.not_eq_true] at hc
      exact (hst hc.1 hc.2).symm
  have q5 : (if full || t.emFlag || nonstd .em t.em then true else false) = t.emFlag := by
    rcases h.emFlag with h1 | ⟨rfl, h2⟩
    · simp [h1]
    · rw [h2, nonstd_em_dflt]; simp
  have q6 : (if full || t.emFlag || nonstd .em t.em then t.em else dflt .em) = t.em := by
    split
    · rfl
    · rename_i hc
      simp only [Bool.or_eq_true, not_or, Bool.not_eq_true] at hc
      exact (hem hc.1.1 hc.2).symm
  rw [q1, q2, q3, q4, q5, q6]

end Nissa.Scan
