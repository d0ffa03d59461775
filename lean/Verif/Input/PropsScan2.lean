import Verif.Input.PropsScan1
set_option linter.all false
namespace Nissa.Scan

theorem modLast_comp {α : Type} (f g : α → α) (l : List α) :
    modLast g (modLast f l) = modLast (fun x => g (f x)) l := by
  induction l with
  | nil => rfl
  | cons x l ih =>
    cases l with
    | nil => rfl
    | cons y l =>
      simp only [modLast]
      cases h : modLast f (y :: l) with
      | nil => cases l <;> simp [modLast] at h
      | cons z m => simp only [modLast]; rw [← ih, h]

theorem modLast_id {α : Type} (f : α → α) (h : ∀ x, f x = x) (l : List α) : modLast f l = l := by
  induction l with
  | nil => rfl
  | cons x l ih =>
    cases l with
    | nil => simp [modLast, h]
    | cons y l => simp only [modLast]; rw [ih]

theorem modLast_append {α : Type} (f : α → α) (l : List α) (x : α) :
    modLast f (l ++ [x]) = l ++ [f x] := by
  induction l with
  | nil => rfl
  | cons a l ih =>
    cases l with
    | nil => rfl
    | cons y l => simp only [List.cons_append, modLast] at ih ⊢; rw [ih]

theorem modTh_comp (f g : Theory → Theory) (d : Driver) :
    modTh g (modTh f d) = modTh (fun t => g (f t)) d := by
  simp only [modTh, modLast_comp]

theorem modGm_comp (m : GM) (f g : GMeas → GMeas) (d : Driver) :
    modGm m g (modGm m f d) = modGm m (fun t => g (f t)) d := by
  cases m <;> simp only [modGm, modLast_comp]

theorem modTh_id (f : Theory → Theory) (h : ∀ t, f t = t) (d : Driver) : modTh f d = d := by
  simp only [modTh, modLast_id f h]

theorem modGm_id (m : GM) (f : GMeas → GMeas) (h : ∀ t, f t = t) (d : Driver) : modGm m f d = d := by
  cases m <;> simp only [modGm, modLast_id f h]

theorem modSub_comp (k : Kw) (f g : Asg → Asg) (s : Smooth) :
    modSub k g (modSub k f s) = modSub k (fun a => g (f a)) s := by
  unfold modSub; cases subBlk k <;> rfl

theorem modSub_id (k : Kw) (s : Smooth) : modSub k (fun a => a) s = s := by
  unfold modSub; cases subBlk k <;> rfl

theorem write_comp (c : Ctx) (f g : Asg → Asg) (d : Driver) :
    write c g (write c f d) = write c (fun a => g (f a)) d := by
  cases c <;> simp only [write, modTh_comp, modGm_comp, modLast_comp, modSub_comp]

theorem write_id (c : Ctx) (d : Driver) : write c (fun a => a) d = d := by
  cases c <;> simp only [write]
  all_goals first
    | exact modTh_id _ (fun t => rfl) d
    | exact modGm_id _ _ (fun t => rfl) d
    | (rw [modLast_id _ (fun x => rfl)])
    | skip
  · apply modTh_id; intro t; rw [modLast_id _ (fun x => rfl)]
  · apply modGm_id; intro t; rw [modSub_id]

/-- Is the line of the parameter printed? -/
def on (full : Bool) (b : Blk) (x : Asg) (k : Kw) : Bool := full || differs b k (x k)

/-- Parameters set by reading the printed lines. -/
def fill (full : Bool) (b : Blk) (x : Asg) : List Kw → Asg → Asg
  | [], a => a
  | k :: ks, a => fill full b x ks (if on full b x k then assign k (x k) a else a)

/-- A line that can be read back. -/
def GoodLine (e : Env) (b : Blk) (x : Asg) (k : Kw) : Prop :=
  label b k = [.kw k] ∧ k ≠ .method ∧ ∃ ty, tyOf b k = some ty ∧ accept e ty (tokOf (x k)) = some (x k)

theorem scan_rows {e : Env} {c : Ctx} {b : Blk} {full : Bool} {x : Asg} (hb : blk c = some b)
    (ks : List Kw) (h : ∀ k ∈ ks, on full b x k = true → GoodLine e b x k) (d : Driver) :
    scanFrom e ⟨d, c, .idle⟩ (ks.flatMap (row full b x)) =
      some ⟨write c (fill full b x ks) d, c, .idle⟩ := by
  induction ks generalizing d with
  | nil => rw [show fill full b x [] = fun a => a from rfl, write_id]; rfl
  | cons k ks ih =>
    rw [List.flatMap_cons, scanFrom_append]
    have ih' := ih (fun k hk => h k (by simp [hk]))
    by_cases hon : on full b x k = true
    · obtain ⟨hl, hm, ty, ht, ha⟩ := h k (by simp) hon
      have hr : row full b x k = [.kw k, .eq, tokOf (x k)] := by
        unfold row; rw [if_pos (show (full || differs b k (x k)) = true from hon), hl]; rfl
      rw [hr, scan_row d hb ht hm ha, Option.bind_some, ih', write_comp]
      simp only [fill, if_pos hon]
    · have hr : row full b x k = [] := by
        unfold row; rw [if_neg (show ¬ (full || differs b k (x k)) = true from hon)]
      rw [hr, scanFrom, Option.bind_some, ih']
      simp only [fill, if_neg hon]

theorem fill_apply {full : Bool} {b : Blk} {x : Asg} (ks : List Kw) (hL : Kw.L ∉ ks) (a : Asg)
    (j : Kw) : fill full b x ks a j = if j ∈ ks ∧ on full b x j = true then x j else a j := by
  induction ks generalizing a with
  | nil => simp [fill]
  | cons k ks ih =>
    rw [fill, ih (by simp_all)]
    have hk : k ≠ .L := by rintro rfl; simp at hL
    by_cases h1 : j ∈ ks ∧ on full b x j = true
    · rw [if_pos h1, if_pos ⟨by simp [h1.1], h1.2⟩]
    · rw [if_neg h1]
      by_cases hjk : j = k
      · subst hjk
        by_cases hon : on full b x j = true
        · simp [hon, assign, hk]
        · simp [hon]
      · have : (j ∈ k :: ks ∧ on full b x j = true) ↔ (j ∈ ks ∧ on full b x j = true) := by simp [hjk]
        have h2 : ¬ (j ∈ k :: ks ∧ on full b x j = true) := fun h => h1 (this.1 h)
        rw [if_neg h2]
        by_cases hon : on full b x k = true
        · rw [if_pos hon]; simp [assign, hk, hjk]
        · rw [if_neg hon]

/-- A block that is printed and read back without loss. -/
structure Good (e : Env) (full : Bool) (b : Blk) (x : Asg) : Prop where
  line : ∀ k ∈ printed b, on full b x k = true → GoodLine e b x k
  lost : ∀ k, x k ≠ dflt b k → k ∈ printed b ∧ on full b x k = true

theorem L_not_printed (b : Blk) : Kw.L ∉ printed b := by cases b <;> decide +kernel

theorem fill_good {e : Env} {full : Bool} {b : Blk} {x : Asg} (h : Good e full b x) :
    fill full b x (printed b) (dflt b) = x := by
  funext j
  rw [fill_apply _ (L_not_printed b)]
  split
  · rfl
  · rename_i hj
    by_contra hc
    exact hj (h.lost j fun h => hc h.symm)

theorem scan_blk {e : Env} {c : Ctx} {b : Blk} {full : Bool} {x : Asg} (hb : blk c = some b)
    (h : Good e full b x) (d : Driver) :
    scanFrom e ⟨d, c, .idle⟩ (rows full b x) =
      some ⟨write c (fill full b x (printed b)) d, c, .idle⟩ :=
  scan_rows hb _ h.line d

theorem not_nonstd_dflt {e : Env} {b : Blk} {x : Asg} (h : Good e false b x)
    (hc : ∀ k ∈ printed b, k ∈ checked b ∨ x k = dflt b k) (hn : nonstd b x = false) : x = dflt b := by
  funext j
  by_contra hj
  obtain ⟨h1, h2⟩ := h.lost j hj
  rcases hc j h1 with h3 | h3
  · unfold nonstd at hn
    rw [List.any_eq_false] at hn
    exact hn j h3 (by simpa [on] using h2)
  · exact hj h3

/-- Every default number has few digits. -/
theorem digits_dflt (b : Blk) : ∀ p ∈ table b, Digits p.2.2 := by
  have z : SixDigits 0 := ⟨0, 0, by norm_num, by norm_num⟩
  have a1 : SixDigits 1 := ⟨1, 0, by norm_num, by norm_num⟩
  have a2 : SixDigits 6 := ⟨6, 0, by norm_num, by norm_num⟩
  have a3 : SixDigits 10 := ⟨10, 0, by norm_num, by norm_num⟩
  have a4 : SixDigits 100 := ⟨100, 0, by norm_num, by norm_num⟩
  have a5 : SixDigits (1 / 10) := ⟨1, -1, by norm_num, by norm_num⟩
  have a6 : SixDigits (1 / 8) := ⟨125, -3, by norm_num, by norm_num⟩
  have a7 : SixDigits (1 / 5) := ⟨2, -1, by norm_num, by norm_num⟩
  have a8 : SixDigits (1 / 2) := ⟨5, -1, by norm_num, by norm_num⟩
  have a9 : SixDigits (1 / 10 ^ 6) := ⟨1, -6, by norm_num, by norm_num⟩
  have a10 : SixDigits (1 / 10 ^ 8) := ⟨1, -8, by norm_num, by norm_num⟩
  have a11 : SixDigits (1 / 10 ^ 12) := ⟨1, -12, by norm_num, by norm_num⟩
  have a12 : SixDigits (1 / 10 ^ 16) := ⟨1, -16, by norm_num, by norm_num⟩
  have t : True := trivial
  have hh : ∀ x ∈ [(1 : ℚ), 1, 1 / 2], SixDigits x := by
    intro x hx; simp only [List.mem_cons, List.not_mem_nil, or_false] at hx
    rcases hx with rfl | rfl | rfl <;> assumption
  intro p hp
  cases b <;>
    simp only [table, baseMeas, List.cons_append, List.nil_append, List.mem_cons, List.not_mem_nil,
      or_false] at hp <;>
    rcases hp with rfl | rfl | rfl | rfl | rfl | rfl | rfl | rfl | rfl | rfl | rfl | rfl | rfl <;>
    first
    | exact t
    | (show SixDigits _; assumption)
    | exact hh

/-- Token of a default. -/
def rawTok : Val → Tok
  | .word k => .kw k
  | v => .val v

theorem accept_dflt (e : Env) (he : e.template "stored_conf.%08d" = true) (b : Blk) :
    ∀ p ∈ table b, p.1 ∉ [Kw.nPseudoFerms, .operators, .maxOrder, .L] →
      accept e p.2.1 (tokOf p.2.2) = some p.2.2 := by
  intro p hp hn
  apply accept_tokOf (t := rawTok p.2.2) _ (digits_dflt b p hp)
  revert hn
  cases b <;>
    simp only [table, baseMeas, List.cons_append, List.nil_append, List.mem_cons, List.not_mem_nil,
      or_false] at hp <;>
    rcases hp with rfl | rfl | rfl | rfl | rfl | rfl | rfl | rfl | rfl | rfl | rfl | rfl | rfl <;>
    intro hn <;>
    first
    | (exfalso; revert hn; decide +kernel)
    | rfl
    | (simp only [rawTok, accept, he]; decide +kernel)

end Nissa.Scan
