import Verif.Input.PropsScan4
set_option linter.all false
namespace Nissa.Scan

theorem scan_row' {e : Env} {c c' : Ctx} {b : Blk} {k : Kw} {ty : Ty} {t : Tok} {v : Val} (d : Driver)
    (hr : resolve c' k = some c) (hb : blk c = some b) (ht : tyOf b k = some ty) (hm : k ≠ .method)
    (ha : accept e ty t = some v) :
    scanFrom e ⟨d, c', .idle⟩ [.kw k, .eq, t] = some ⟨write c (assign k v) d, c, .idle⟩ := by
  have hi : k ∉ inner c := fun hk => by rw [inner_not_ty c b k hb hk] at ht; cases ht
  have hnc : c ≠ .global := by rintro rfl; cases hb
  have h1 : stepAll e ⟨d, c', .idle⟩ (.kw k) = some ⟨d, c', .key c k⟩ := by
    simp only [stepAll, step, stepKw, hr, hnc, false_and, if_false, header_none hi]
  have h2 : stepAll e ⟨d, c', .key c k⟩ .eq = some ⟨d, c', .val c k⟩ := by
    simp only [stepAll, step, if_neg hm, if_true]
  have h3 : stepAll e ⟨d, c', .val c k⟩ t = some ⟨write c (assign k v) d, c, .idle⟩ := by
    unfold stepAll
    split
    · rename_i heq; simp only [Pend.val.injEq] at heq; exact absurd heq.1 hnc
    · simp only [step, stepVal, if_neg hi, hb, ht, ha]
  simp only [scanFrom, h1, h2, h3]

/-- Open blocks from which the settings of the smoothing go to the smoothing. -/
def ToSmooth (g : GM) : Ctx → Prop := fun c => ∀ k ∈ printed .smooth, resolve c k = some (.smooth g)

theorem toSmooth_self (g : GM) : ToSmooth g (.smooth g) := by
  intro k hk
  apply resolve_self
  revert k
  cases g <;> decide +kernel

theorem toSmooth_sub (g : GM) {w : Kw} (hw : w ∈ [Kw.cooling, .stout, .wFlow, .ape, .hyp]) :
    ToSmooth g (.sub g w) := by
  simp only [List.mem_cons, List.not_mem_nil, or_false] at hw
  unfold ToSmooth
  rcases hw with rfl | rfl | rfl | rfl | rfl <;> cases g <;> decide +kernel

theorem eats_smooth_rows {e : Env} {g : GM} {full : Bool} {x : Asg} (h : Good e full .smooth x)
    (ks : List Kw) (hks : ∀ k ∈ ks, k ∈ printed .smooth) :
    Eats e (ToSmooth g) (ToSmooth g) (ks.flatMap (row full .smooth x))
      (write (.smooth g) (fill full .smooth x ks)) := by
  induction ks with
  | nil =>
    exact eats_congr (eats_nil fun c h => h) fun d => (write_id _ d).symm
  | cons k ks ih =>
    rw [List.flatMap_cons]
    have ih' := ih fun k hk => hks k (by simp [hk])
    by_cases hon : on full .smooth x k = true
    · obtain ⟨hl, hm, ty, ht, ha⟩ := h.line k (hks k (by simp)) hon
      have hr : row full .smooth x k = [.kw k, .eq, tokOf (x k)] := by
        unfold row; rw [if_pos (show (full || differs _ k (x k)) = true from hon), hl]; rfl
      have h1 : Eats e (ToSmooth g) (ToSmooth g) (row full .smooth x k)
          (write (.smooth g) (assign k (x k))) := by
        intro d c hc
        refine ⟨.smooth g, toSmooth_self g, ?_⟩
        rw [hr]
        exact scan_row' d (hc k (hks k (by simp))) rfl ht hm ha
      refine eats_congr (eats_append h1 ih') ?_
      intro d
      rw [write_comp]
      simp only [fill, if_pos hon]
    · have hr : row full .smooth x k = [] := by
        unfold row; rw [if_neg (show ¬ (full || differs _ k (x k)) = true from hon)]
      rw [hr, List.nil_append]
      simp only [fill, if_neg hon]
      exact ih'

/-- A smoothing that is printed without loss. -/
structure GoodSmooth (e : Env) (full : Bool) (s : Smooth) : Prop where
  kind : s.kind ∈ [Kw.cooling, .stout, .wFlow, .ape, .hyp]
  own : Good e full .smooth s.own
  sub : Good e full (subBlk s.kind) (subOf s)
  cool : s.kind ≠ .cooling → s.cool = dflt .cool
  stout : s.kind ≠ .stout → s.stout = dflt .stout
  wflow : s.kind ≠ .wFlow → s.wflow = dflt .wflow
  ape : s.kind ≠ .ape → s.ape = dflt .ape
  hyp : s.kind ≠ .hyp → s.hyp = dflt .hyp
  cooling : full = false → s.kind = .cooling → (s.cool = dflt .cool ↔ s.own = dflt .smooth)
  stouting : full = false → s.kind = .stout → s.stout ≠ dflt .stout

theorem checked_subBlk (w : Kw) : checked (subBlk w) = printed (subBlk w) := by
  unfold subBlk; split <;> rfl

theorem subStr_eq {e : Env} {full : Bool} {s : Smooth} (h : GoodSmooth e full s) :
    subStr full s =
      .kw s.kind :: (if full || nonstd (subBlk s.kind) (subOf s) then rows full (subBlk s.kind) (subOf s) else []) := by
  unfold subStr
  split
  · rename_i hk
    have hso : subOf s = s.stout := by simp only [subOf, hk]
    have hsb : subBlk s.kind = .stout := by rw [hk]; rfl
    have hn : (full || nonstd .stout s.stout) = true := by
      by_contra hc
      simp only [Bool.or_eq_true, not_or, Bool.not_eq_true] at hc
      obtain ⟨rfl, hc⟩ := hc
      have hg := h.sub
      rw [hso, hsb] at hg
      exact h.stouting rfl hk (not_nonstd_dflt hg (fun k hk => Or.inl hk) hc)
    rw [hsb, hso]
    unfold stoutStr
    rw [if_pos hn, if_pos hn, hk]
  · rfl

theorem modSub_new {e : Env} {full : Bool} {s : Smooth} (h : GoodSmooth e full s) (F : Asg → Asg)
    (hF : F (dflt (subBlk s.kind)) = subOf s) :
    { modSub s.kind F { newSmooth with kind := s.kind } with own := s.own } = s := by
  have hk := h.kind
  obtain ⟨kind, own, cool, stout, wflow, ape, hyp⟩ := s
  have c1 := h.cool; have c2 := h.stout; have c3 := h.wflow; have c4 := h.ape; have c5 := h.hyp
  simp only [List.mem_cons, List.not_mem_nil, or_false] at hk c1 c2 c3 c4 c5
  rcases hk with rfl | rfl | rfl | rfl | rfl <;>
    simp only [ne_eq, reduceCtorEq, not_false_eq_true, forall_const, not_true_eq_false, false_implies] at c1 c2 c3 c4 c5 <;>
    simp only [modSub, subBlk, subOf, newSmooth] at hF ⊢ <;> simp only [hF] <;> simp_all

theorem eats_smooth {e : Env} {g : GM} {full : Bool} {s : Smooth} (h : GoodSmooth e full s) :
    ∃ F : Smooth → Smooth, F newSmooth = s ∧ Eats e (· = .gm g) Any (smoothStr full s)
      (modGm g fun m => { m with smooth := F m.smooth }) := by
  have hown : full = false → nonstd .smooth s.own = false → s.own = dflt .smooth := by
    rintro rfl hq; exact not_nonstd_dflt h.own (fun k hk => Or.inl hk) hq
  unfold smoothStr
  by_cases hP : (full || smoothNonstd s) = true
  · have hM : (full || decide (s.kind ≠ .cooling) || nonstd (subBlk s.kind) (subOf s)) = true := by
      by_contra hc
      simp only [Bool.or_eq_true, not_or, Bool.not_eq_true, decide_eq_false_iff_not, not_not] at hc
      obtain ⟨⟨rfl, hk⟩, hn⟩ := hc
      have hsub : s.cool = dflt .cool := by
        have hg := h.sub
        have hso : subOf s = s.cool := by simp only [subOf, hk]
        rw [hso, hk] at hg hn
        exact not_nonstd_dflt hg (fun k hk => Or.inl hk) hn
      have := (h.cooling rfl hk).1 hsub
      simp only [Bool.false_or, smoothNonstd, hk, this, nonstd_dflt (b := .smooth) (by decide)] at hP
      simp at hP
    rw [if_pos hP, if_pos hM, subStr_eq h]
    refine ⟨fun _ => s, rfl, ?_⟩
    set F := if full || nonstd (subBlk s.kind) (subOf s) then
      fill full (subBlk s.kind) (subOf s) (printed (subBlk s.kind)) else fun a => a with hFdef
    have hF : F (dflt (subBlk s.kind)) = subOf s := by
      rw [hFdef]
      split
      · exact fill_good h.sub
      · rename_i hc
        simp only [Bool.or_eq_true, not_or, Bool.not_eq_true] at hc
        obtain ⟨rfl, hc⟩ := hc
        exact (not_nonstd_dflt h.sub (fun k hk => Or.inl (by rw [checked_subBlk]; exact hk)) hc).symm
    have t1 : Eats e (· = .gm g) (· = .sub g s.kind) [.kw .smoothMethod, .eq, .kw s.kind]
        (modGm g fun m => { m with smooth := { newSmooth with kind := s.kind } }) := by
      rintro d _ rfl
      refine ⟨.sub g s.kind, rfl, ?_⟩
      apply step_special (c0 := .gm g) (by cases g <;> decide +kernel) (by decide) rfl (by simp [inner])
        (by decide) (by decide)
      simp only [special, if_pos h.kind]
    have t2 : Eats e (· = .sub g s.kind) (ToSmooth g)
        (if full || nonstd (subBlk s.kind) (subOf s) then rows full (subBlk s.kind) (subOf s) else [])
        (write (.sub g s.kind) F) := by
      rw [hFdef]
      split
      · exact eats_weak (eats_rows rfl h.sub) (fun c h => h)
          (fun c hc => by subst hc; exact toSmooth_sub g h.kind)
      · exact eats_congr (eats_nil fun c hc => by subst hc; exact toSmooth_sub g h.kind)
          fun d => (write_id _ d).symm
    have t3 := eats_smooth_rows (g := g) h.own (printed .smooth) (fun k hk => hk)
    have hall := eats_append t1 (eats_append t2 t3)
    have hl : ∀ A B : List Tok, [Tok.kw .smoothMethod, .eq] ++ (.kw s.kind :: A) ++ B =
        [.kw .smoothMethod, .eq, .kw s.kind] ++ (A ++ B) := by intro A B; simp
    rw [hl]
    refine eats_congr (eats_weak hall (fun c h => h) (fun c _ => trivial)) ?_
    intro d
    simp only [write, modGm_comp]
    congr 1
    funext m
    congr 1
    have := modSub_new h F hF
    have ho : (modSub s.kind F { newSmooth with kind := s.kind }).own = dflt .smooth := by
      unfold modSub; cases subBlk s.kind <;> rfl
    rw [ho, fill_good h.own]
    exact this
  · rw [if_neg hP]
    refine ⟨fun s => s, ?_, ?_⟩
    · simp only [Bool.or_eq_true, not_or, Bool.not_eq_true, smoothNonstd, Bool.or_eq_false_iff,
        decide_eq_false_iff_not, not_not] at hP
      obtain ⟨rfl, hk, hn⟩ := hP
      have h1 := hown rfl hn
      have h2 := (h.cooling rfl hk).2 h1
      have h3 := h.stout (by rw [hk]; decide)
      have h4 := h.wflow (by rw [hk]; decide)
      have h5 := h.ape (by rw [hk]; decide)
      have h6 := h.hyp (by rw [hk]; decide)
      cases s
      simp only at *
      subst h1 h2 h3 h4 h5 h6 hk
      rfl
    · exact eats_congr (eats_nil fun c _ => trivial) fun d => (modGm_id _ _ (fun t => rfl) d).symm

/-- A printed gauge measurement is read as the same one. -/
theorem eats_plaq {e : Env} {full : Bool} {m : GMeas} (h1 : Good e full .plaq m.own)
    (h2 : GoodSmooth e full m.smooth) :
    Eats e Any Any (gmeasStr full .measPlaqPol .plaq m) (fun d => { d with plaqs := d.plaqs ++ [m] }) := by
  obtain ⟨F, hF, hs⟩ := eats_smooth (g := .plaq) h2
  have t := eats_hrows (e := e) (k := .measPlaqPol) (c := .gm .plaq) (full := full) (by decide) (by decide) (fun d => rfl)
    rfl h1
  refine eats_congr (eats_append t hs) ?_
  intro d
  simp only [write, modGm, modLast_append, fill_good h1, hF]

theorem eats_top {e : Env} {full : Bool} {m : GMeas} (h1 : Good e full .top m.own)
    (h2 : GoodSmooth e full m.smooth) :
    Eats e Any Any (gmeasStr full .measTop .top m) (fun d => { d with tops := d.tops ++ [m] }) := by
  obtain ⟨F, hF, hs⟩ := eats_smooth (g := .top) h2
  have t := eats_hrows (e := e) (k := .measTop) (c := .gm .top) (full := full) (by decide) (by decide) (fun d => rfl)
    rfl h1
  refine eats_congr (eats_append t hs) ?_
  intro d
  simp only [write, modGm, modLast_append, fill_good h1, hF]

theorem eats_meson {e : Env} {full : Bool} {x : Asg} (h : Good e full .meson x) :
    Eats e Any Any (measStr full .measMesonCorrs .meson x)
      (fun d => { d with mesons := d.mesons ++ [x] }) := by
  have t := eats_hrows (e := e) (k := .measMesonCorrs) (c := .meson) (full := full) (by decide) (by decide) (fun d => rfl) rfl h
  refine eats_congr (eats_weak t (fun c h => h) (fun c _ => trivial)) ?_
  intro d
  simp only [write, modLast_append, fill_good h]

theorem eats_zumba {e : Env} {full : Bool} {x : Asg} (h : Good e full .zumba x) :
    Eats e Any Any (measStr full .measZumba .zumba x)
      (fun d => { d with zumbas := d.zumbas ++ [x] }) := by
  have t := eats_hrows (e := e) (k := .measZumba) (c := .zumba) (full := full) (by decide) (by decide) (fun d => rfl) rfl h
  refine eats_congr (eats_weak t (fun c h => h) (fun c _ => trivial)) ?_
  intro d
  simp only [write, modLast_append, fill_good h]

theorem eats_elle {e : Env} {full : Bool} {x : Asg} (h : Good e full .elle x) :
    Eats e Any Any (measStr full .measElleSettete .elle x)
      (fun d => { d with elles := d.elles ++ [x] }) := by
  have t := eats_hrows (e := e) (k := .measElleSettete) (c := .elle) (full := full) (by decide) (by decide) (fun d => rfl) rfl h
  refine eats_congr (eats_weak t (fun c h => h) (fun c _ => trivial)) ?_
  intro d
  simp only [write, modLast_append, fill_good h]

/-- Blocks printed only if not standard. -/
theorem eats_blkStr {e : Env} {full : Bool} {h : Kw} {b : Blk} {x : Asg} {c : Ctx}
    {g : Driver → Driver} (hk : h ∈ globals) (ha : h ≠ .analysis)
    (hh : ∀ d, header .global h d = some (g d, c)) (hb : blk c = some b) (hx : Good e full b x)
    (hc : full = false → ∀ k ∈ printed b, k ∈ checked b ∨ x k = dflt b k ∨ nonstd b x = true) :
    ∃ F : Asg → Asg, F (dflt b) = x ∧ Eats e Any Any (blkStr full h b x)
      (fun d => if full || nonstd b x then write c F (g d) else d) := by
  unfold blkStr
  by_cases hp : (full || nonstd b x) = true
  · refine ⟨fill full b x (printed b), fill_good hx, ?_⟩
    simp only [hp, if_true]
    exact eats_weak (eats_hrows hk ha hh hb hx) (fun c h => h) (fun c _ => trivial)
  · refine ⟨fun a => a, ?_, ?_⟩
    · simp only [Bool.or_eq_true, not_or, Bool.not_eq_true] at hp
      obtain ⟨rfl, hp⟩ := hp
      refine (not_nonstd_dflt hx (fun k hk => ?_) hp).symm
      rcases hc rfl k hk with h1 | h1 | h1
      · exact Or.inl h1
      · exact Or.inr h1
      · rw [hp] at h1; cases h1
    · simp only [hp, if_false]
      exact eats_nil fun c _ => trivial

end Nissa.Scan
