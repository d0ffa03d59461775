import Verif.Input.PropsScanEx
set_option linter.all false
namespace Nissa.Scan

/-! C88: the order of the settings of a block. -/

/-- Settings as written in the input: keyword, `=`, value. -/
def written (l : List (Kw × Tok)) : List Tok := l.flatMap fun p => [.kw p.1, .eq, p.2]

theorem scan_bad_row {e : Env} {c : Ctx} {b : Blk} {k : Kw} {ty : Ty} {t : Tok} (d : Driver)
    (hb : blk c = some b) (ht : tyOf b k = some ty) (hm : k ≠ .method) (ha : accept e ty t = none) :
    scanFrom e ⟨d, c, .idle⟩ [.kw k, .eq, t] = none := by
  have hi : k ∉ inner c := fun hk => by rw [inner_not_ty c b k hb hk] at ht; cases ht
  have hg : ¬ (c = .global ∧ k = .analysis) := by rintro ⟨rfl, -⟩; cases hb
  have hcg : c ≠ .global := by rintro rfl; cases hb
  have h1 : stepAll e ⟨d, c, .idle⟩ (.kw k) = some ⟨d, c, .key c k⟩ := by
    simp only [stepAll, step, stepKw, resolve_self (takes_of_ty hb ht), hg, if_false, header_none hi]
  have h2 : stepAll e ⟨d, c, .key c k⟩ .eq = some ⟨d, c, .val c k⟩ := by
    simp only [stepAll, step, hm, if_false, if_true]
  have h3 : stepAll e ⟨d, c, .val c k⟩ t = none := by
    have : stepAll e ⟨d, c, .val c k⟩ t = step e ⟨d, c, .val c k⟩ t := by
      unfold stepAll
      split
      · rename_i h; injection h with h _; exact absurd h hcg
      · rfl
    rw [this]
    simp only [step, stepVal, hi, if_false, hb, ht, ha]
  simp only [scanFrom, h1, h2, h3]

/-- One setting, accepted or not. -/
theorem scan_setting {e : Env} {c : Ctx} {b : Blk} {k : Kw} {ty : Ty} (t : Tok) (d : Driver)
    (hb : blk c = some b) (ht : tyOf b k = some ty) (hm : k ≠ .method) :
    scanFrom e ⟨d, c, .idle⟩ [.kw k, .eq, t] =
      (accept e ty t).map fun v => ⟨write c (assign k v) d, c, .idle⟩ := by
  cases ha : accept e ty t with
  | none => exact scan_bad_row d hb ht hm ha
  | some v => exact scan_row d hb ht hm ha

theorem assign_comm {k j : Kw} (hkj : k ≠ j) (hk : k ≠ .L) (hj : j ≠ .L) (v w : Val) (a : Asg) :
    assign k v (assign j w a) = assign j w (assign k v a) := by
  funext i
  simp only [assign, if_neg hk, if_neg hj]
  by_cases h1 : i = k
  · subst h1; simp [hkj]
  · simp [h1]

theorem written_cons (p : Kw × Tok) (l : List (Kw × Tok)) :
    written (p :: l) = [.kw p.1, .eq, p.2] ++ written l := rfl

theorem scan_perm {e : Env} {c : Ctx} {b : Blk} (hb : blk c = some b) {l m : List (Kw × Tok)} (hp : l.Perm m) :
    (∀ p ∈ l, (tyOf b p.1).isSome = true ∧ p.1 ≠ .method ∧ p.1 ≠ .L) → (l.map Prod.fst).Nodup →
    ∀ d, scanFrom e ⟨d, c, .idle⟩ (written l) = scanFrom e ⟨d, c, .idle⟩ (written m) := by
  induction hp with
  | nil => intro _ _ d; rfl
  | cons p hp ih =>
    intro h hn d
    rw [written_cons, written_cons, scanFrom_append, scanFrom_append]
    obtain ⟨h1, h2, h3⟩ := h p (by simp)
    obtain ⟨ty, ht⟩ := Option.isSome_iff_exists.1 h1
    rw [scan_setting p.2 d hb ht h2]
    cases accept e ty p.2 with
    | none => rfl
    | some v =>
      simp only [Option.map_some, Option.bind_some]
      rw [List.map_cons, List.nodup_cons] at hn
      exact ih (fun q hq => h q (by simp [hq])) hn.2 _
  | swap p q l =>
    intro h hn d
    obtain ⟨h1, h2, h3⟩ := h p (by simp)
    obtain ⟨h4, h5, h6⟩ := h q (by simp)
    obtain ⟨ty, ht⟩ := Option.isSome_iff_exists.1 h1
    obtain ⟨ty', ht'⟩ := Option.isSome_iff_exists.1 h4
    have hne : q.1 ≠ p.1 := by
      rw [List.map_cons, List.map_cons, List.nodup_cons] at hn
      intro hh; exact hn.1 (by simp [hh])
    simp only [written_cons, scanFrom_append]
    rw [scan_setting q.2 d hb ht' h5, scan_setting p.2 d hb ht h2]
    cases hp' : accept e ty p.2 with
    | none =>
      cases hq' : accept e ty' q.2 with
      | none => rfl
      | some w =>
        simp only [Option.map_some, Option.bind_some, Option.map_none, Option.bind_none]
        rw [scan_setting p.2 _ hb ht h2, hp']; rfl
    | some v =>
      cases hq' : accept e ty' q.2 with
      | none =>
        simp only [Option.map_some, Option.bind_some, Option.map_none, Option.bind_none]
        rw [scan_setting q.2 _ hb ht' h5, hq']; rfl
      | some w =>
        simp only [Option.map_some, Option.bind_some]
        rw [scan_setting p.2 _ hb ht h2, hp', scan_setting q.2 _ hb ht' h5, hq']
        simp only [Option.map_some, Option.bind_some, write_comp]
        have : (fun x => assign p.1 v (assign q.1 w x)) = fun x => assign q.1 w (assign p.1 v x) := by
          funext x; exact assign_comm (Ne.symm hne) h3 h6 v w x
        rw [this]
  | trans h1 h2 ih1 ih2 =>
    intro h hn d
    rw [ih1 h hn d]
    exact ih2 (fun p hp => h p (h1.mem_iff.2 hp)) ((h1.map Prod.fst).nodup_iff.1 hn) d

theorem scan_middle {e : Env} {pre a b post : List Tok} {s : St}
    (hpre : scanFrom e ⟨newDriver, .global, .idle⟩ pre = some s)
    (h : scanFrom e s a = scanFrom e s b) : scan e (pre ++ a ++ post) = scan e (pre ++ b ++ post) := by
  unfold scan
  have : ∀ m, scanFrom e ⟨newDriver, .global, .idle⟩ (pre ++ m ++ post) =
      (scanFrom e s m).bind fun s' => scanFrom e s' post := by
    intro m
    rw [scanFrom_append, scanFrom_append, hpre, Option.bind_some]
  rw [this, this, h]

/-- C88: the settings of a block can be written in any order: the whole input gives the same
parameters, or is refused in both cases. -/
theorem C88_settings_order_irrelevant (e : Env) (pre post : List Tok) (d : Driver) (c : Ctx) (b : Blk)
    (hpre : scanFrom e ⟨newDriver, .global, .idle⟩ pre = some ⟨d, c, .idle⟩) (hb : blk c = some b)
    (l m : List (Kw × Tok)) (hp : l.Perm m)
    (hl : ∀ p ∈ l, (tyOf b p.1).isSome = true ∧ p.1 ≠ .method ∧ p.1 ≠ .L)
    (hn : (l.map Prod.fst).Nodup) :
    scan e (pre ++ written l ++ post) = scan e (pre ++ written m ++ post) :=
  scan_middle hpre (scan_perm hb hp hl hn d)

/-- C88: of two values given to the same setting of a block, the last one counts. -/
theorem C88_last_setting_wins (e : Env) (pre post : List Tok) (d : Driver) (c : Ctx) (b : Blk)
    (hpre : scanFrom e ⟨newDriver, .global, .idle⟩ pre = some ⟨d, c, .idle⟩) (hb : blk c = some b)
    (k : Kw) (ty : Ty) (t t' : Tok) (v : Val) (hk : tyOf b k = some ty) (hm : k ≠ .method)
    (hv : accept e ty t = some v) :
    scan e (pre ++ written [(k, t), (k, t')] ++ post) = scan e (pre ++ written [(k, t')] ++ post) := by
  refine scan_middle hpre ?_
  rw [written_cons, scanFrom_append, scan_setting t d hb hk hm, hv]
  simp only [Option.map_some, Option.bind_some]
  have h1 : ∀ d, scanFrom e ⟨d, c, .idle⟩ (written [(k, t')]) =
      (accept e ty t').map fun v => ⟨write c (assign k v) d, c, .idle⟩ :=
    fun d => scan_setting t' d hb hk hm
  rw [h1, h1]
  cases accept e ty t' with
  | none => rfl
  | some w =>
    simp only [Option.map_some, write_comp]
    have : (fun x => assign k w (assign k v x)) = assign k w := by
      funext x i
      unfold assign
      by_cases hL : k = .L
      · simp only [if_pos hL]; split <;> rfl
      · simp only [if_neg hL]; split <;> rfl
    rw [this]

/-- The hypotheses of C88 are met inside the block of a quark. -/
example : ∃ d, scanFrom anyFile ⟨newDriver, .global, .idle⟩
    [.kw .theory, .kw .quark, .eq, .val (.text "up")] = some ⟨d, .quark, .idle⟩ ∧
    ∀ p ∈ [(Kw.mass, Tok.val (.int 1)), (Kw.kappa, Tok.val (.int 2))],
      (tyOf .quark p.1).isSome = true ∧ p.1 ≠ .method ∧ p.1 ≠ .L :=
  ⟨_, rfl, by decide +kernel⟩

/-- `L` and `LX` are not independent: their order counts, so `L` is left out of C88. -/
theorem C88_order_of_L_matters :
    (scan anyFile (.kw .geometry :: written [(.L, .val (.int 8)), (.LX, .val (.int 6))])).map (fun d => d.geo .LX) ≠
    (scan anyFile (.kw .geometry :: written [(.LX, .val (.int 6)), (.L, .val (.int 8))])).map (fun d => d.geo .LX) := by
  decide +kernel
end Nissa.Scan
