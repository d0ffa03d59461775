import Verif.Input.PropsScan6
set_option linter.all false
namespace Nissa.Scan

/-! What a scan can return. -/

/-- A theory that was scanned. -/
structure ReadTheory (e : Env) (t : Theory) : Prop where
  own : Read e .theory t.own
  kind : t.topoKind ∈ [Kw.none_, .ordinary, .meta_]
  topo : Read e .topo t.topo
  topoStout : Read e .stout t.topoStout
  quark : ∀ q ∈ t.quarks, noQuote q.1 = true ∧ Read e .quark q.2
  stout : Read e .stout t.stout
  em : Read e .em t.em
  flag : t.emFlag = false → t.em = dflt .em

/-- A smoothing that was scanned. -/
structure ReadSmooth (e : Env) (s : Smooth) : Prop where
  kind : s.kind ∈ [Kw.cooling, .stout, .wFlow, .ape, .hyp]
  own : Read e .smooth s.own
  rcool : Read e .cool s.cool
  rstout : Read e .stout s.stout
  rwflow : Read e .wflow s.wflow
  rape : Read e .ape s.ape
  rhyp : Read e .hyp s.hyp
  cool : s.kind ≠ .cooling → s.cool = dflt .cool
  stout : s.kind ≠ .stout → s.stout = dflt .stout
  wflow : s.kind ≠ .wFlow → s.wflow = dflt .wflow
  ape : s.kind ≠ .ape → s.ape = dflt .ape
  hyp : s.kind ≠ .hyp → s.hyp = dflt .hyp

/-- Gauge measurements of a kind. -/
def gms (g : GM) (d : Driver) : List GMeas := match g with | .plaq => d.plaqs | .top => d.tops

def gmBlk : GM → Blk | .plaq => .plaq | .top => .top

/-- Parameters that were scanned. -/
structure Scanned (e : Env) (d : Driver) : Prop where
  tag : noQuote d.tag = true
  geo : Read e .geo d.geo
  theory : ∀ t ∈ d.theories, ReadTheory e t
  meson : ∀ x ∈ d.mesons, Read e .meson x
  zumba : ∀ x ∈ d.zumbas, Read e .zumba x
  elle : ∀ x ∈ d.elles, Read e .elle x
  gm : ∀ g, ∀ m ∈ gms g d, Read e (gmBlk g) m.own ∧ ReadSmooth e m.smooth
  luppoli : ∀ x ∈ d.luppolis, Read e .luppoli x
  run : Read e .run d.run
  evol : Read e .evol d.evol
  quen : Read e .quen d.quen
  conf : Read e .conf d.conf

theorem read_dflt (e : Env) (b : Blk) : Read e b (dflt b) := fun k => Or.inl rfl

theorem read_assign {e : Env} {b : Blk} {k : Kw} {ty : Ty} {t : Tok} {v : Val} {x : Asg} (h : Read e b x)
    (ht : tyOf b k = some ty) (ha : accept e ty t = some v) : Read e b (assign k v x) := by
  unfold assign
  split
  · rename_i hk
    subst hk
    have hb : b = .geo := by
      have hn : ∀ b : Blk, b = .geo ∨ tyOf b .L = none := by
        intro b; cases b <;> first | (left; rfl) | (right; rfl)
      rcases hn b with h1 | h1
      · exact h1
      · rw [h1] at ht; cases ht
    subst hb
    have hty : ty = .int := by
      have : tyOf .geo .L = some .int := rfl
      rw [this] at ht; injection ht with ht; exact ht.symm
    subst hty
    intro j
    dsimp only
    split
    · rename_i hj
      right
      rcases hj with rfl | rfl | rfl
      · exact ⟨by decide, .int, t, rfl, ha⟩
      · exact ⟨by decide, .int, t, rfl, ha⟩
      · exact ⟨by decide, .int, t, rfl, ha⟩
    · exact h j
  · rename_i hk
    intro j
    dsimp only
    split
    · rename_i hj; subst hj; exact Or.inr ⟨hk, ty, t, ht, ha⟩
    · exact h j

theorem modLast_forall {α : Type} {p : α → Prop} {f : α → α} {l : List α} (h : ∀ x ∈ l, p x)
    (hf : ∀ x ∈ l, l.getLast? = some x → p x → p (f x)) : ∀ x ∈ modLast f l, p x := by
  induction l with
  | nil => intro x hx; exact absurd hx List.not_mem_nil
  | cons a l ih =>
    cases l with
    | nil =>
      intro x hx
      simp only [modLast, List.mem_singleton] at hx
      subst hx
      exact hf a (by simp) (by simp) (h a (by simp))
    | cons b l =>
      intro x hx
      simp only [modLast, List.mem_cons] at hx
      rcases hx with rfl | hx
      · exact h _ (by simp)
      · refine ih (fun y hy => h y (by simp [hy])) (fun y hy hl => hf y (by simp [hy]) ?_) x hx
        rw [List.getLast?_cons_cons]; exact hl

theorem modLast_getLast {α : Type} (f : α → α) (l : List α) :
    (modLast f l).getLast? = l.getLast?.map f := by
  induction l with
  | nil => rfl
  | cons a l ih =>
    cases l with
    | nil => rfl
    | cons b l =>
      simp only [modLast]
      rw [List.getLast?_cons_cons, ← ih]
      cases hm : modLast f (b :: l) with
      | nil => cases l <;> simp [modLast] at hm
      | cons c m => rw [List.getLast?_cons_cons]

/-- What the open block says of the block being read. -/
def CtxOk (d : Driver) : Ctx → Prop
  | .em => ∀ t, d.theories.getLast? = some t → t.emFlag = true
  | .sub g w => w ∈ [Kw.cooling, .stout, .wFlow, .ape, .hyp] ∧
      ∀ m, (gms g d).getLast? = some m → m.smooth.kind = w
  | _ => True

theorem scanned_th {e : Env} {d : Driver} {f : Theory → Theory} (h : Scanned e d)
    (hf : ∀ t ∈ d.theories, d.theories.getLast? = some t → ReadTheory e t → ReadTheory e (f t)) :
    Scanned e (modTh f d) :=
  { h with theory := modLast_forall h.theory hf, gm := h.gm }

theorem scanned_gm {e : Env} {d : Driver} {g : GM} {f : GMeas → GMeas} (h : Scanned e d)
    (hf : ∀ m ∈ gms g d, (gms g d).getLast? = some m → Read e (gmBlk g) m.own ∧ ReadSmooth e m.smooth →
      Read e (gmBlk g) (f m).own ∧ ReadSmooth e (f m).smooth) :
    Scanned e (modGm g f d) := by
  cases g with
  | plaq =>
    have hg : ∀ g', ∀ m ∈ gms g' (modGm .plaq f d), Read e (gmBlk g') m.own ∧ ReadSmooth e m.smooth := by
      intro g'
      cases g' with
      | plaq => exact modLast_forall (h.gm .plaq) hf
      | top => exact h.gm .top
    exact { h with gm := hg }
  | top =>
    have hg : ∀ g', ∀ m ∈ gms g' (modGm .top f d), Read e (gmBlk g') m.own ∧ ReadSmooth e m.smooth := by
      intro g'
      cases g' with
      | plaq => exact h.gm .plaq
      | top => exact modLast_forall (h.gm .top) hf
    exact { h with gm := hg }

theorem readSmooth_modSub {e : Env} {w : Kw} {f : Asg → Asg} {s : Smooth} (h : ReadSmooth e s)
    (hw : s.kind = w) (hf : ∀ x, Read e (subBlk w) x → Read e (subBlk w) (f x)) :
    ReadSmooth e (modSub w f s) := by
  have hk := h.kind
  rw [hw] at hk
  simp only [List.mem_cons, List.not_mem_nil, or_false] at hk
  rcases hk with rfl | rfl | rfl | rfl | rfl
  · exact { h with rcool := hf _ h.rcool, cool := fun hn => absurd hw hn }
  · exact { h with rstout := hf _ h.rstout, stout := fun hn => absurd hw hn }
  · exact { h with rwflow := hf _ h.rwflow, wflow := fun hn => absurd hw hn }
  · exact { h with rape := hf _ h.rape, ape := fun hn => absurd hw hn }
  · exact { h with rhyp := hf _ h.rhyp, hyp := fun hn => absurd hw hn }

theorem scanned_write {e : Env} {d : Driver} {c : Ctx} {b : Blk} {f : Asg → Asg} (h : Scanned e d)
    (hc : CtxOk d c) (hb : blk c = some b) (hf : ∀ x, Read e b x → Read e b (f x)) :
    Scanned e (write c f d) := by
  cases c with
  | global => cases hb
  | geo => injection hb with hb; subst hb; exact { h with geo := hf _ h.geo, gm := h.gm }
  | run => injection hb with hb; subst hb; exact { h with run := hf _ h.run, gm := h.gm }
  | theory =>
    injection hb with hb; subst hb
    exact scanned_th h fun t _ _ ht => { ht with own := hf _ ht.own }
  | topo =>
    injection hb with hb; subst hb
    exact scanned_th h fun t _ _ ht => { ht with topo := hf _ ht.topo }
  | topoStout =>
    injection hb with hb; subst hb
    exact scanned_th h fun t _ _ ht => { ht with topoStout := hf _ ht.topoStout }
  | quark =>
    injection hb with hb; subst hb
    exact scanned_th h fun t _ _ ht => { ht with
      quark := modLast_forall ht.quark fun q _ _ hq => ⟨hq.1, hf _ hq.2⟩ }
  | em =>
    injection hb with hb; subst hb
    exact scanned_th h fun t _ hl ht => { ht with
      em := hf _ ht.em, flag := fun hn => by rw [hc t hl] at hn; cases hn }
  | stout =>
    injection hb with hb; subst hb
    exact scanned_th h fun t _ _ ht => { ht with stout := hf _ ht.stout }
  | meson =>
    injection hb with hb; subst hb
    exact { h with meson := modLast_forall h.meson fun x _ _ hx => hf _ hx, gm := h.gm }
  | zumba =>
    injection hb with hb; subst hb
    exact { h with zumba := modLast_forall h.zumba fun x _ _ hx => hf _ hx, gm := h.gm }
  | elle =>
    injection hb with hb; subst hb
    exact { h with elle := modLast_forall h.elle fun x _ _ hx => hf _ hx, gm := h.gm }
  | gm g =>
    have hb : b = gmBlk g := by cases g <;> (injection hb with hb; exact hb.symm)
    subst hb
    exact scanned_gm h fun m _ _ hm => ⟨hf _ hm.1, hm.2⟩
  | luppoli =>
    injection hb with hb; subst hb
    exact { h with luppoli := modLast_forall h.luppoli fun x _ _ hx => hf _ hx, gm := h.gm }
  | smooth g =>
    injection hb with hb; subst hb
    exact scanned_gm h fun m _ _ hm => ⟨hm.1, { hm.2 with own := hf _ hm.2.own }⟩
  | sub g w =>
    injection hb with hb; subst hb
    exact scanned_gm h fun m _ hl hm => ⟨hm.1, readSmooth_modSub hm.2 (hc.2 m hl) hf⟩
  | evol => injection hb with hb; subst hb; exact { h with evol := hf _ h.evol, gm := h.gm }
  | quen => injection hb with hb; subst hb; exact { h with quen := hf _ h.quen, gm := h.gm }
  | conf => injection hb with hb; subst hb; exact { h with conf := hf _ h.conf, gm := h.gm }

theorem modSub_kind (w : Kw) (f : Asg → Asg) (s : Smooth) : (modSub w f s).kind = s.kind := by
  unfold modSub; split <;> rfl

theorem ctxOk_write {d : Driver} {c : Ctx} {f : Asg → Asg} (hc : CtxOk d c) :
    CtxOk (write c f d) c := by
  cases c with
  | em =>
    intro t ht
    simp only [write, modTh, modLast_getLast, Option.map_eq_some_iff] at ht
    obtain ⟨t', h1, rfl⟩ := ht
    exact hc t' h1
  | sub g w =>
    refine ⟨hc.1, fun m hm => ?_⟩
    have : (gms g (write (.sub g w) f d)).getLast? =
        ((gms g d).getLast?).map (fun m => { m with smooth := modSub w f m.smooth }) := by
      cases g <;> simp only [write, modGm, gms, modLast_getLast]
    rw [this, Option.map_eq_some_iff] at hm
    obtain ⟨m', h1, rfl⟩ := hm
    dsimp only
    rw [modSub_kind]; exact hc.2 m' h1
  | _ => trivial

theorem readTheory_new (e : Env) : ReadTheory e newTheory :=
  ⟨read_dflt _ _, by decide, read_dflt _ _, read_dflt _ _, fun _ h => absurd h List.not_mem_nil,
    read_dflt _ _, read_dflt _ _, fun _ => rfl⟩

theorem readSmooth_new (e : Env) {w : Kw} (hw : w ∈ [Kw.cooling, .stout, .wFlow, .ape, .hyp]) :
    ReadSmooth e { newSmooth with kind := w } :=
  ⟨hw, read_dflt _ _, read_dflt _ _, read_dflt _ _, read_dflt _ _, read_dflt _ _, read_dflt _ _,
    fun _ => rfl, fun _ => rfl, fun _ => rfl, fun _ => rfl, fun _ => rfl⟩

theorem forall_snoc {α : Type} {p : α → Prop} {l : List α} {a : α} (h : ∀ x ∈ l, p x) (ha : p a) :
    ∀ x ∈ l ++ [a], p x := by
  intro x hx
  simp only [List.mem_append, List.mem_singleton] at hx
  rcases hx with hx | rfl
  · exact h x hx
  · exact ha

theorem scanned_header {e : Env} {d d' : Driver} {c c' : Ctx} {k : Kw} (h : Scanned e d)
    (hh : header c k d = some (d', c')) : Scanned e d' ∧ CtxOk d' c' := by
  unfold header at hh
  split at hh <;> simp only [Option.some.injEq, Prod.mk.injEq, reduceCtorEq] at hh <;>
    obtain ⟨rfl, rfl⟩ := hh
  · exact ⟨h, trivial⟩
  · exact ⟨h, trivial⟩
  · exact ⟨{ h with theory := forall_snoc h.theory (readTheory_new e), gm := h.gm }, trivial⟩
  · exact ⟨{ h with meson := forall_snoc h.meson (read_dflt _ _), gm := h.gm }, trivial⟩
  · exact ⟨{ h with zumba := forall_snoc h.zumba (read_dflt _ _), gm := h.gm }, trivial⟩
  · exact ⟨{ h with elle := forall_snoc h.elle (read_dflt _ _), gm := h.gm }, trivial⟩
  · refine ⟨{ h with gm := fun g => ?_ }, trivial⟩
    cases g with
    | plaq => exact forall_snoc (h.gm .plaq) ⟨read_dflt _ _, readSmooth_new e (w := .cooling) (by decide)⟩
    | top => exact h.gm .top
  · refine ⟨{ h with gm := fun g => ?_ }, trivial⟩
    cases g with
    | plaq => exact h.gm .plaq
    | top => exact forall_snoc (h.gm .top) ⟨read_dflt _ _, readSmooth_new e (w := .cooling) (by decide)⟩
  · exact ⟨{ h with luppoli := forall_snoc h.luppoli (read_dflt _ _), gm := h.gm }, trivial⟩
  · exact ⟨{ h with gm := h.gm }, trivial⟩
  · exact ⟨{ h with gm := h.gm }, trivial⟩
  · exact ⟨{ h with gm := h.gm }, trivial⟩
  · exact ⟨scanned_th h fun t _ _ ht => { ht with stout := read_dflt _ _ }, trivial⟩
  · refine ⟨scanned_th h fun t _ _ ht => { ht with em := read_dflt _ _, flag := fun _ => rfl }, ?_⟩
    intro t ht
    simp only [modTh, modLast_getLast, Option.map_eq_some_iff] at ht
    obtain ⟨t', h1, rfl⟩ := ht
    rfl
  · exact ⟨scanned_th h fun t _ _ ht => { ht with topoStout := read_dflt _ _ }, trivial⟩

theorem scanned_special {e : Env} {d d' : Driver} {c c' : Ctx} {k : Kw} {t : Tok} (h : Scanned e d)
    (hh : special e c k t d = some (d', c')) : Scanned e d' ∧ CtxOk d' c' := by
  unfold special at hh
  split at hh
  · split at hh
    · rename_i hq
      simp only [Option.some.injEq, Prod.mk.injEq] at hh
      obtain ⟨rfl, rfl⟩ := hh
      exact ⟨{ h with tag := hq, gm := h.gm }, trivial⟩
    · cases hh
  · simp only [Option.some.injEq, Prod.mk.injEq] at hh
    obtain ⟨rfl, rfl⟩ := hh
    exact ⟨{ h with gm := h.gm }, trivial⟩
  · split at hh
    · rename_i hq
      simp only [Option.some.injEq, Prod.mk.injEq] at hh
      obtain ⟨rfl, rfl⟩ := hh
      exact ⟨scanned_th h fun t _ _ ht => { ht with
        kind := hq, topo := read_dflt _ _, topoStout := read_dflt _ _ }, trivial⟩
    · cases hh
  · split at hh
    · rename_i hq
      simp only [Option.some.injEq, Prod.mk.injEq] at hh
      obtain ⟨rfl, rfl⟩ := hh
      exact ⟨scanned_th h fun t _ _ ht => { ht with
        quark := forall_snoc ht.quark ⟨hq, read_dflt _ _⟩ }, trivial⟩
    · cases hh
  · split at hh
    · rename_i g w hq
      simp only [Option.some.injEq, Prod.mk.injEq] at hh
      obtain ⟨rfl, rfl⟩ := hh
      refine ⟨scanned_gm h fun m _ _ hm => ⟨hm.1, readSmooth_new e hq⟩, hq, ?_⟩
      intro m hm
      have : ∀ f, (gms g (modGm g f d)).getLast? = ((gms g d).getLast?).map f := by
        intro f; cases g <;> simp only [modGm, gms, modLast_getLast]
      rw [this, Option.map_eq_some_iff] at hm
      obtain ⟨m', h1, rfl⟩ := hm
      rfl
    · cases hh
  · cases hh

/-- Invariant of the scan. -/
structure Inv (e : Env) (s : St) : Prop where
  drv : Scanned e s.drv
  ctx : CtxOk s.drv s.ctx
  key : ∀ c k, s.pend = .key c k → CtxOk s.drv c
  val : ∀ c k, s.pend = .val c k → CtxOk s.drv c

theorem ctxOk_chain {d : Driver} {c c' : Ctx} (h : CtxOk d c) (hc : c' ∈ chain c) : CtxOk d c' := by
  cases c <;> simp only [chain, List.mem_cons, List.not_mem_nil, or_false] at hc <;>
    (try rcases hc with rfl | rfl | rfl | rfl) <;> (try rcases hc with rfl | rfl | rfl) <;>
    (try rcases hc with rfl | rfl) <;> first | exact h | exact trivial | (subst hc; exact trivial)

theorem inv_idle {e : Env} {d : Driver} {c : Ctx} (h : Scanned e d ∧ CtxOk d c) : Inv e ⟨d, c, .idle⟩ :=
  ⟨h.1, h.2, fun _ _ h => (by cases h), fun _ _ h => (by cases h)⟩

theorem inv_stepVal {e : Env} {s s' : St} {c : Ctx} {k : Kw} {t : Tok} (h : Inv e s) (hc : CtxOk s.drv c)
    (hs : stepVal e s c k t = some s') : Inv e s' := by
  unfold stepVal at hs
  split at hs
  · split at hs
    · rename_i d c' hsp
      injection hs with hs; subst hs
      exact inv_idle (scanned_special h.drv hsp)
    · cases hs
  · cases hb : blk c with
    | none => rw [hb] at hs; cases hs
    | some b =>
      rw [hb] at hs; dsimp only at hs
      cases hty : tyOf b k with
      | none => rw [hty] at hs; cases hs
      | some ty =>
        rw [hty] at hs; dsimp only at hs
        cases ha : accept e ty t with
        | none => rw [ha] at hs; cases hs
        | some v =>
          rw [ha] at hs; dsimp only at hs
          injection hs with hs; subst hs
          exact inv_idle ⟨scanned_write h.drv hc hb fun x hx => read_assign hx hty ha, ctxOk_write hc⟩

theorem inv_step {e : Env} {s s' : St} {t : Tok} (h : Inv e s) (hs : stepAll e s t = some s') :
    Inv e s' := by
  unfold stepAll at hs
  split at hs
  · split at hs
    · cases hs
    · split at hs
      · cases hs
      · injection hs with hs; subst hs
        exact inv_idle ⟨{ h.drv with gm := h.drv.gm }, trivial⟩
  · unfold step at hs
    split at hs
    · rename_i k hp
      unfold stepKw at hs
      split at hs
      · cases hs
      · rename_i c hr
        have hc : CtxOk s.drv c := ctxOk_chain h.ctx (List.mem_of_find?_eq_some hr)
        split at hs
        · injection hs with hs; subst hs
          exact ⟨h.drv, trivial, fun _ _ h => (by cases h), fun _ _ h => (by cases h)⟩
        · split at hs
          · rename_i d c' hh
            injection hs with hs; subst hs
            exact inv_idle (scanned_header h.drv hh)
          · injection hs with hs; subst hs
            refine ⟨h.drv, h.ctx, ?_, fun _ _ h => (by cases h)⟩
            intro c1 k1 h1
            injection h1 with h1 h2; subst h1; exact hc
    · rename_i c k hp _
      have hc := h.key _ _ hp
      split at hs
      · exact inv_stepVal h hc hs
      · split at hs
        · injection hs with hs; subst hs
          refine ⟨h.drv, h.ctx, fun _ _ h => (by cases h), ?_⟩
          intro c1 k1 h1
          injection h1 with h1 h2; subst h1; exact hc
        · cases hs
    · rename_i c k hp _
      exact inv_stepVal h (h.val _ _ hp) hs
    · injection hs with hs; subst hs
      refine ⟨h.drv, h.ctx, ?_, fun _ _ h => (by cases h)⟩
      intro c1 k1 h1
      injection h1 with h1 h2; subst h1; exact trivial
    · cases hs

theorem scanned_new (e : Env) : Scanned e newDriver :=
  ⟨by decide, read_dflt _ _, fun _ h => absurd h List.not_mem_nil, fun _ h => absurd h List.not_mem_nil,
    fun _ h => absurd h List.not_mem_nil, fun _ h => absurd h List.not_mem_nil,
    fun g => by cases g <;> exact fun _ h => absurd h List.not_mem_nil,
    fun _ h => absurd h List.not_mem_nil, read_dflt _ _, read_dflt _ _, read_dflt _ _, read_dflt _ _⟩

theorem inv_scanFrom {e : Env} {s s' : St} {l : List Tok} (h : Inv e s) (hs : scanFrom e s l = some s') :
    Inv e s' := by
  induction l generalizing s with
  | nil => injection hs with hs; subst hs; exact h
  | cons t l ih =>
    rw [scanFrom] at hs
    cases ht : stepAll e s t with
    | none => rw [ht] at hs; cases hs
    | some s1 => rw [ht] at hs; exact ih (inv_step h ht) hs

/-- Everything a scan returns. -/
theorem scanned_of_scan {e : Env} {l : List Tok} {d : Driver} (h : scan e l = some d) : Scanned e d := by
  unfold scan at h
  cases hs : scanFrom e ⟨newDriver, .global, .idle⟩ l with
  | none => rw [hs] at h; cases h
  | some s =>
    rw [hs] at h
    dsimp only at h
    split at h
    · injection h with h; subst h
      exact (inv_scanFrom (inv_idle (c := .global) ⟨scanned_new e, trivial⟩) hs).drv
    · cases h
end Nissa.Scan
