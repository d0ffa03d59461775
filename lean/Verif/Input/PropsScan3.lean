import Verif.Input.PropsScan2
set_option linter.all false
namespace Nissa.Scan

/-- Scanning these tokens from an open block of kind `P` has the effect `f` and ends in `Q`. -/
def Eats (e : Env) (P Q : Ctx → Prop) (toks : List Tok) (f : Driver → Driver) : Prop :=
  ∀ d c, P c → ∃ c', Q c' ∧ scanFrom e ⟨d, c, .idle⟩ toks = some ⟨f d, c', .idle⟩

/-- Any open block. -/
def Any : Ctx → Prop := fun _ => True

theorem eats_append {e : Env} {P Q R : Ctx → Prop} {a b : List Tok} {f g : Driver → Driver}
    (h1 : Eats e P Q a f) (h2 : Eats e Q R b g) : Eats e P R (a ++ b) (fun d => g (f d)) := by
  intro d c hc
  obtain ⟨c1, q1, s1⟩ := h1 d c hc
  obtain ⟨c2, q2, s2⟩ := h2 (f d) c1 q1
  exact ⟨c2, q2, by rw [scanFrom_append, s1, Option.bind_some, s2]⟩

theorem eats_nil {e : Env} {P Q : Ctx → Prop} (h : ∀ c, P c → Q c) : Eats e P Q [] (fun d => d) :=
  fun d c hc => ⟨c, h c hc, rfl⟩

theorem eats_weak {e : Env} {P P' Q Q' : Ctx → Prop} {a : List Tok} {f : Driver → Driver}
    (h : Eats e P Q a f) (hp : ∀ c, P' c → P c) (hq : ∀ c, Q c → Q' c) : Eats e P' Q' a f := by
  intro d c hc
  obtain ⟨c1, q1, s1⟩ := h d c (hp c hc)
  exact ⟨c1, hq _ q1, s1⟩

theorem eats_congr {e : Env} {P Q : Ctx → Prop} {a : List Tok} {f g : Driver → Driver}
    (h : Eats e P Q a f) (hfg : ∀ d, f d = g d) : Eats e P Q a g := by
  intro d c hc
  obtain ⟨c1, q1, s1⟩ := h d c hc
  exact ⟨c1, q1, by rw [s1, hfg]⟩

theorem global_not_ty (b : Blk) : ∀ k ∈ globals, tyOf b k = none := by
  cases b <;> decide +kernel

theorem takes_global {c : Ctx} {k : Kw} (hk : k ∈ globals) (hc : c ≠ .global) : takes c k = false := by
  have h1 : k ∉ inner c := by
    revert hk
    cases c <;> simp only [inner] <;> first
      | (exact absurd rfl hc)
      | (intro _ h; exact absurd h List.not_mem_nil)
      | (clear hc; revert k; decide +kernel)
  unfold takes
  cases hb : blk c with
  | none => simp [h1]
  | some b => simp [h1, global_not_ty b k hk]

theorem resolve_global {c : Ctx} {k : Kw} (hk : k ∈ globals) : resolve c k = some .global := by
  have hg : takes .global k = true := by unfold takes; simp [inner, hk]
  have h := fun (c : Ctx) (hc : c ≠ .global) => takes_global hk hc
  unfold resolve
  cases c <;> simp [chain, List.find?_cons, hg, h]

theorem eats_header {e : Env} {k : Kw} {g : Driver → Driver} {c0 : Ctx} (hk : k ∈ globals)
    (ha : k ≠ .analysis) (hh : ∀ d, header .global k d = some (g d, c0)) :
    Eats e Any (· = c0) [.kw k] g := by
  intro d c _
  refine ⟨c0, rfl, ?_⟩
  have h1 : stepAll e ⟨d, c, .idle⟩ (.kw k) = some ⟨g d, c0, .idle⟩ := by
    simp only [stepAll, step, stepKw, resolve_global hk, ha, and_false, if_false, hh]
  simp only [scanFrom, h1]

theorem eats_rows {e : Env} {c : Ctx} {b : Blk} {full : Bool} {x : Asg} (hb : blk c = some b)
    (h : Good e full b x) :
    Eats e (· = c) (· = c) (rows full b x) (write c (fill full b x (printed b))) := by
  rintro d _ rfl
  exact ⟨_, rfl, scan_blk hb h d⟩

theorem eats_hrows {e : Env} {k : Kw} {g : Driver → Driver} {c : Ctx} {b : Blk} {full : Bool} {x : Asg}
    (hk : k ∈ globals) (ha : k ≠ .analysis) (hh : ∀ d, header .global k d = some (g d, c))
    (hb : blk c = some b) (h : Good e full b x) :
    Eats e Any (· = c) (.kw k :: rows full b x)
      (fun d => write c (fill full b x (printed b)) (g d)) :=
  eats_append (a := [Tok.kw k]) (eats_header hk ha hh) (eats_rows hb h)

theorem eats_flatMap {e : Env} {P : Ctx → Prop} {α : Type} (str : α → List Tok)
    (add : α → Driver → Driver) (l : List α) (h : ∀ x ∈ l, Eats e P P (str x) (add x)) :
    Eats e P P (l.flatMap str) (fun d => l.foldl (fun d x => add x d) d) := by
  induction l with
  | nil => exact eats_nil fun c h => h
  | cons x l ih =>
    rw [List.flatMap_cons]
    exact eats_append (h x (by simp)) (ih fun y hy => h y (by simp [hy]))

/-- The environment accepts the default name of the stored configurations. -/
def EnvOk (e : Env) : Prop := e.template "stored_conf.%08d" = true

theorem tyOf_mem {b : Blk} {k : Kw} {ty : Ty} (h : tyOf b k = some ty) :
    (k, ty, dflt b k) ∈ table b := by
  unfold tyOf at h
  unfold dflt
  cases hl : (table b).lookup k with
  | none => rw [hl] at h; cases h
  | some p =>
    rw [hl] at h
    simp only [Option.map_some, Option.some.injEq] at h
    subst h
    simp only [Option.map_some, Option.getD_some]
    have : ∀ (l : List (Kw × Ty × Val)), l.lookup k = some p → (k, p) ∈ l := by
      intro l
      induction l with
      | nil => simp
      | cons q l ih =>
        intro hq
        obtain ⟨a, r⟩ := q
        rw [List.lookup_cons] at hq
        by_cases hka : k == a
        · simp only [hka] at hq
          simp only [beq_iff_eq] at hka
          simp_all
        · simp only [hka] at hq
          exact List.mem_cons_of_mem _ (ih hq)
    exact this _ hl

theorem goodLine_of_read {e : Env} (he : EnvOk e) {b : Blk} {x : Asg} (hr : Read e b x)
    (hd : ∀ k, Digits (x k)) {k : Kw} {ty : Ty} (ht : tyOf b k = some ty) (hl : label b k = [.kw k])
    (hm : k ≠ .method) (hx : k ∉ [Kw.nPseudoFerms, .operators, .maxOrder, .L] ∨ x k ≠ dflt b k) :
    GoodLine e b x k := by
  refine ⟨hl, hm, ty, ht, ?_⟩
  rcases hr k with h | ⟨_, ty', t, h1, h2⟩
  · rcases hx with hx | hx
    · have := accept_dflt e he b _ (tyOf_mem ht) hx
      rw [h]; exact this
    · exact absurd h hx
  · rw [ht] at h1; injection h1 with h1; subst h1
    exact accept_tokOf h2 (hd k)

/-- Blocks whose lines are exactly their settings. -/
def regular (b : Blk) : Bool :=
  ((printed b).all fun k => (tyOf b k).isSome && decide (k ≠ .method) && decide (k ≠ .maxOrder) &&
    decide (k ≠ .L) && decide (label b k = [.kw k])) &&
  (table b).all fun p => (printed b).contains p.1

theorem differs_eq {b : Blk} {k : Kw} {v : Val} (hb : b ≠ .em) :
    differs b k v = decide (v ≠ dflt b k) := by
  cases b <;> first | rfl | exact absurd rfl hb

theorem good_of_read {e : Env} (he : EnvOk e) {full : Bool} {b : Blk} {x : Asg} (hr : Read e b x)
    (hd : ∀ k, Digits (x k)) (hreg : regular b = true) (hem : b = .em → ∀ k, x k ≠ dflt .em k →
      on full .em x k = true)
    (hf : full = true → ∀ k ∈ printed b, k ∈ [Kw.nPseudoFerms, .operators] → x k ≠ dflt b k) :
    Good e full b x := by
  unfold regular at hreg
  rw [Bool.and_eq_true, List.all_eq_true, List.all_eq_true] at hreg
  obtain ⟨h1, h2⟩ := hreg
  have hon : ∀ k, x k ≠ dflt b k → on full b x k = true := by
    intro k hk
    by_cases hb : b = .em
    · subst hb; exact hem rfl k hk
    · unfold on; rw [differs_eq hb]; simp [hk]
  constructor
  · intro k hk hk'
    have h3 := h1 k hk
    simp only [Bool.and_eq_true, decide_eq_true_eq] at h3
    obtain ⟨⟨⟨⟨h4, h5⟩, h6⟩, h7⟩, h8⟩ := h3
    obtain ⟨ty, ht⟩ := Option.isSome_iff_exists.1 h4
    refine goodLine_of_read he hr hd ht h8 h5 ?_
    by_cases hx : x k = dflt b k
    · left
      intro hmem
      simp only [List.mem_cons, List.not_mem_nil, or_false] at hmem
      have hcon : k ∈ [Kw.nPseudoFerms, .operators] → False := by
        intro hm2
        cases full with
        | true => exact hf rfl k hk hm2 hx
        | false =>
          have hbe : b ≠ .em := by
            rintro rfl
            simp only [List.mem_cons, List.not_mem_nil, or_false] at hm2
            rcases hm2 with rfl | rfl <;> revert hk <;> decide +kernel
          unfold on at hk'
          rw [differs_eq hbe] at hk'
          simp [hx] at hk'
      rcases hmem with rfl | rfl | rfl | rfl
      · exact hcon (by simp)
      · exact hcon (by simp)
      · exact h6 rfl
      · exact h7 rfl
    · right; exact hx
  · intro k hk
    refine ⟨?_, hon k hk⟩
    rcases hr k with h | ⟨_, ty, t, ht, _⟩
    · exact absurd h hk
    · have := h2 _ (tyOf_mem ht)
      simpa using this

theorem lookup_unset {b : Blk} {k : Kw} (h : tyOf b k = none) : dflt b k = .unset := by
  unfold tyOf at h
  unfold dflt
  cases hl : (table b).lookup k with
  | none => rfl
  | some p => rw [hl] at h; cases h

end Nissa.Scan
