import Verif.Measures.PropsStagCorr2

/-! # C62: the meson correlators -/

set_option linter.all false

namespace Nissa.Stag
open Nissa.Lx Nissa.Sten Nissa.Su3f Nissa.Gauge Nissa.StD Nissa.Back Nissa.GForce Matrix

noncomputable section

/-! ### Specification -/

/-- `sol` solves the staggered Dirac equation of links `U` and mass `m`: exactly on the odd sites, with the required residue on the even ones -/
def Solves (g : Geo) (U : Coords → Quad) (m residue : ℝ) (source sol : Coords → Col) : Prop :=
  let D := fun (sign : ℝ) (x : Coords → Col) c => (m : ℂ) • x c + (sign / 2 : ℂ) • hop g U x c
  let R := fun c => D 1 sol c - source c
  (∀ c ∈ boxP g 1, R c = 0) ∧ m ^ 2 * (dot (box g.L) R R).re < residue * (dot (boxP g 0) (D (-1) source) (D (-1) source)).re

/-- the operator of the meson: that of the given spin and taste, times gamma5 times gamma5 -/
def mesonOpG (g : Geo) (p : MesonPars) (conf : EoConf) (iflav iop : Nat) (x : Coords → Col) (c : Coords) : Col :=
  ((-1 : ℝ)) ^ (c 0 + c 1 + c 2 + c 3) • stagOp g (fun c mu => globEo g (p.backfield iflav) c mu • globEo g conf c mu) (p.mesons iop).1 (p.mesons iop).2 x c

/-- the propagators of a hit: `q` from the source with the operator to the smeared sink; `q0` the one of the first operator, with the operator at the sink -/
def IsHit (g : Geo) (p : MesonPars) (conf : EoConf) (ori : EoCol) (q q0 : Nat → Nat → Coords → Col) : Prop :=
  ∀ f < p.nflavs, ∀ o < p.nop,
    (∃ source sol, Solves g (stagLinks g conf (p.backfield f)) (p.mass f) p.residue source sol ∧
      (∀ c ∈ box g.L, source c = mesonOpG g p conf f o ((smearCol g p.gauss_kappa (globEo g conf))^[p.gauss_niter_src.toNat] (globEo g ori)) c) ∧
      (∀ c ∈ box g.L, q f o c = (smearCol g p.gauss_kappa (globEo g conf))^[p.gauss_niter_snk.toNat] sol c)) ∧
    ∀ c ∈ box g.L, q0 f o c = mesonOpG g p conf f o (q f 0) c

/-! ### Lemmas on loops -/

theorem fold_keep {A V : Type} (key : A → Nat) (f : V → A → V) : ∀ (l : List A) (k : Nat) (_ : ∀ a ∈ l, key a ≠ k) (b : Nat → V),
    (l.foldl (fun b a => Function.update b (key a) (f (b (key a)) a)) b) k = b k := by
  intro l
  induction l with
  | nil => intro k _ b; rfl
  | cons a l ih =>
    intro k hk b
    rw [List.foldl_cons, ih k (fun a' h => hk a' (List.mem_cons_of_mem _ h)), Function.update_of_ne (fun h => hk a (List.mem_cons_self) h.symm)]

theorem foldM_keep {A V : Type} (key : A → Nat) (val : A → Option V) : ∀ (l : List A) (k : Nat) (_ : ∀ a ∈ l, key a ≠ k) (b b' : Nat → V)
    (_ : l.foldlM (fun b a => (val a).bind fun v => some (Function.update b (key a) v)) b = some b'), b' k = b k := by
  intro l
  induction l with
  | nil => intro k _ b b' h; cases h; rfl
  | cons a l ih =>
    intro k hk b b' h
    rw [List.foldlM_cons] at h
    cases hv : val a with
    | none => rw [hv] at h; cases h
    | some v =>
      rw [hv] at h
      rw [ih k (fun a' h => hk a' (List.mem_cons_of_mem _ h)) _ b' h, Function.update_of_ne (fun h => hk a (List.mem_cons_self) h.symm)]

theorem foldM_upd {A V : Type} (key : A → Nat) (val : A → Option V) : ∀ (l : List A), l.Nodup → (∀ a ∈ l, ∀ b ∈ l, key a = key b → a = b) → ∀ (b b' : Nat → V)
    (_ : l.foldlM (fun b a => (val a).bind fun v => some (Function.update b (key a) v)) b = some b'), ∀ a ∈ l, val a = some (b' (key a)) := by
  intro l
  induction l with
  | nil => intro _ _ b b' h a ha; cases ha
  | cons a0 l ih =>
    intro hnd hinj b b' h a ha
    have hnd' := List.nodup_cons.1 hnd
    rw [List.foldlM_cons] at h
    cases hv : val a0 with
    | none => rw [hv] at h; cases h
    | some v =>
      rw [hv] at h
      by_cases he : a = a0
      · subst he
        rw [foldM_keep key val l _ (fun a' h' hh => hnd'.1 ((hinj a' (List.mem_cons_of_mem _ h') a List.mem_cons_self hh) ▸ h')) _ b' h, Function.update_self, hv]
      · exact ih hnd'.2 (fun x hx y hy => hinj x (List.mem_cons_of_mem _ hx) y (List.mem_cons_of_mem _ hy)) _ b' h a ((List.mem_cons.1 ha).resolve_left he)

theorem pair_inj {n a b a' b' : Nat} (hb : b < n) (hb' : b' < n) (h : b + n * a = b' + n * a') : a = a' ∧ b = b' := by
  have h1 : (b + n * a) / n = a := by rw [Nat.add_mul_div_left _ _ (by omega), Nat.div_eq_of_lt hb, Nat.zero_add]
  have h2 : (b' + n * a') / n = a' := by rw [Nat.add_mul_div_left _ _ (by omega), Nat.div_eq_of_lt hb', Nat.zero_add]
  have : a = a' := by rw [← h1, ← h2, h]
  subst this
  exact ⟨rfl, by omega⟩

/-- C62: different combinations of flavours, operators and distances are stored at different places -/
theorem C62_icombo_injective {L nop nflavs a b c d e a' b' c' d' e' : Nat} (hb : b < nflavs) (hb' : b' < nflavs) (hc : c < nop) (hc' : c' < nop) (hd : d < nop) (hd' : d' < nop) (he : e < L) (he' : e' < L)
    (h : icombo L nop nflavs a b c d e = icombo L nop nflavs a' b' c' d' e') : a = a' ∧ b = b' ∧ c = c' ∧ d = d' ∧ e = e' := by
  unfold icombo at h
  obtain ⟨h1, h2⟩ := pair_inj he he' h
  obtain ⟨h3, h4⟩ := pair_inj hd hd' h1
  obtain ⟨h5, h6⟩ := pair_inj hc hc' h3
  obtain ⟨h7, h8⟩ := pair_inj hb hb' h5
  exact ⟨h7, h8, h6, h4, h2⟩

theorem lt_mul_add {n m a b : Nat} (ha : a < m) (hb : b < n) : b + n * a < n * m := by nlinarith

/-- C62: all the combinations fit in the array, of size one more than the index of the last of them; no element of the array is left out -/
theorem C62_icombo_bound {L nop nflavs a b c d e : Nat} (ha : a < nflavs) (hb : b < nflavs) (hc : c < nop) (hd : d < nop) (he : e < L) :
    icombo L nop nflavs a b c d e < icombo L nop nflavs (nflavs - 1) (nflavs - 1) (nop - 1) (nop - 1) (L - 1) + 1 ∧
    icombo L nop nflavs (nflavs - 1) (nflavs - 1) (nop - 1) (nop - 1) (L - 1) + 1 = nflavs * nflavs * (nop * nop) * L := by
  have e2 : icombo L nop nflavs (nflavs - 1) (nflavs - 1) (nop - 1) (nop - 1) (L - 1) + 1 = nflavs * nflavs * (nop * nop) * L := by
    unfold icombo
    obtain ⟨n, rfl⟩ : ∃ n, nflavs = n + 1 := ⟨nflavs - 1, by omega⟩
    obtain ⟨k, rfl⟩ : ∃ k, nop = k + 1 := ⟨nop - 1, by omega⟩
    obtain ⟨l, rfl⟩ : ∃ l, L = l + 1 := ⟨L - 1, by omega⟩
    simp only [Nat.add_sub_cancel]
    ring
  refine ⟨?_, e2⟩
  rw [e2]
  unfold icombo
  have h := lt_mul_add (lt_mul_add (lt_mul_add (lt_mul_add ha hb) hc) hd) he
  calc _ < _ := h
    _ = _ := by ring

section
variable {g : Geo}

/-! ### Smearing -/

theorem smearCol_congr (ok : g.Ok) {k : ℝ} {U V : Coords → Quad} {x y : Coords → Col} (hU : ∀ c ∈ box g.L, U c = V c) (h : ∀ c ∈ box g.L, x c = y c) :
    ∀ c ∈ box g.L, smearCol g k U x c = smearCol g k V y c := by
  intro c hc
  unfold smearCol
  rw [h c hc]
  congr 2
  refine Finset.sum_congr rfl fun i _ => ?_
  rw [hU c hc, h _ (tshift_mem_box ok hc _ 1), hU _ (tshift_mem_box ok hc _ (-1)), h _ (tshift_mem_box ok hc _ (-1))]

theorem smear_iter_congr (ok : g.Ok) {k : ℝ} {U V : Coords → Quad} (hU : ∀ c ∈ box g.L, U c = V c) (n : Nat) : ∀ {x y : Coords → Col} (_ : ∀ c ∈ box g.L, x c = y c),
    ∀ c ∈ box g.L, (smearCol g k U)^[n] x c = (smearCol g k V)^[n] y c := by
  induction n with
  | zero => intro x y h; exact h
  | succ n ih => intro x y h; exact ih (smearCol_congr ok hU h)

theorem avg_col (k : ℝ) (U : Coords → Quad) (v : Coords → Gsm.CV Unit) : (fun c => ofCV (Gsm.avg g (fun _ => k) U v c)) = smearCol g k U fun c => ofCV (v c) := by
  funext c a
  unfold Gsm.avg smearCol ofCV
  rw [show 1 + 2 * (k + k + k) = 1 + 6 * k by ring]
  simp only [Matrix.smul_apply, Matrix.add_apply, Pi.smul_apply, Pi.add_apply, Finset.sum_apply, Matrix.sum_apply, Matrix.mul_apply, mulVec, dotProduct]

theorem avg_iter (k : ℝ) (U : Coords → Quad) (n : Nat) : ∀ v : Coords → Gsm.CV Unit, (fun c => ofCV ((Gsm.avg g (fun _ => k) U)^[n] v c)) = (smearCol g k U)^[n] fun c => ofCV (v c) := by
  induction n with
  | zero => intro v; rfl
  | succ n ih => intro v; rw [Function.iterate_succ_apply, ih, Function.iterate_succ_apply, avg_col]

variable (ok : g.Ok) (eo : EoOk g)
include ok eo

/-- C62: the smearing of an even/odd colour field, with the gauge configuration in lexicographic order -/
theorem C62_smear (ji : Nat) (jq : Quad) (jv : Col) (inp : EoCol) (conf : EoConf) (k : ℝ) (n : Int) {c : Coords} (hc : c ∈ box g.L) :
    globEo g (gaussian_smear_eo g ji jq jv inp (EoP.pasteFld g jq conf) k n) c = (smearCol g k (globEo g conf))^[n.toNat] (globEo g inp) c := by
  unfold gaussian_smear_eo
  by_cases h : n ≤ 0
  · rw [if_pos h, show n.toNat = 0 by omega]; rfl
  · rw [if_neg h]
    simp only
    rw [EoP.glob_split ok eo jv _ hc]
    have h1 : glob g (fun rk i => ofCV (Gsm.gaussian_smearing_iso g ji jq (toCV jv) (fun rk i => toCV (EoP.pasteFld g jv inp rk i)) (EoP.pasteFld g jq conf) k n rk i)) c =
        ofCV (glob g (Gsm.gaussian_smearing_iso g ji jq (toCV jv) (fun rk i => toCV (EoP.pasteFld g jv inp rk i)) (EoP.pasteFld g jq conf) k n) c) := rfl
    rw [h1, Gsm.C59_isotropic ok ji jq (toCV jv) _ _ k n c hc]
    have h2 := congrFun (avg_iter (g := g) k (glob g (EoP.pasteFld g jq conf)) n.toNat (glob g fun rk i => toCV (EoP.pasteFld g jv inp rk i))) c
    beta_reduce at h2
    rw [h2]
    refine smear_iter_congr ok (fun c hc => EoP.glob_paste ok eo jq conf hc) n.toNat (fun c hc => ?_) c hc
    exact EoP.glob_paste ok eo jv inp hc

/-! ### One hit -/

theorem mesonOp_eq (J : Junk) (p : MesonPars) (conf : EoConf) (iflav iop : Nat) (inp temp0 out : EoCol) (h : mesonOp g J p conf iflav iop inp temp0 = some out) :
    ∀ c ∈ box g.L, globEo g out c = mesonOpG g p conf iflav iop (globEo g inp) c := by
  unfold mesonOp at h
  obtain ⟨o1, h1, h2⟩ := (C62_shift_op ok eo J.ji J.jq J.jv J.jc J.junk conf (p.backfield iflav) (mesonShift p iop) inp temp0).2
  rw [h1] at h
  cases h
  intro c hc
  rw [C62_phases ok eo _ _ _ _ hc, h2 c hc]
  unfold mesonMask
  rw [C62_meson_mask, mul_smul]
  rfl

/-- C62: what is computed for a hit -/
theorem C62_meson_hit (J : Junk) (p : MesonPars) (conf : EoConf) (temp0 : EoCol) (old qq : (Nat → EoCol) × (Nat → EoCol)) (ori : EoCol)
    (hm : ∀ f < p.nflavs, p.mass f ≠ 0) (h : mesonHit ok eo J p conf temp0 old ori = some qq) :
    IsHit g p conf ori (fun f o => globEo g (qq.1 (f * p.nop + o))) (fun f o => globEo g (qq.2 (f * p.nop + o))) := by
  unfold mesonHit at h
  simp only [Option.bind_eq_bind, Option.pure_def] at h
  obtain ⟨q, hq, h⟩ := Option.bind_eq_some_iff.1 h
  obtain ⟨q0, hq0, h⟩ := Option.bind_eq_some_iff.1 h
  cases h
  have hnd : (flavOps p).Nodup := List.nodup_range.product List.nodup_range
  have hinj : ∀ a ∈ flavOps p, ∀ b ∈ flavOps p, a.1 * p.nop + a.2 = b.1 * p.nop + b.2 → a = b := by
    intro a ha b hb hab
    have h1 := List.mem_range.1 (List.pair_mem_product.1 (show (a.1, a.2) ∈ List.range p.nflavs ×ˢ List.range p.nop from ha)).2
    have h2 := List.mem_range.1 (List.pair_mem_product.1 (show (b.1, b.2) ∈ List.range p.nflavs ×ˢ List.range p.nop from hb)).2
    obtain ⟨e1, e2⟩ := pair_inj h1 h2 (show a.2 + p.nop * a.1 = b.2 + p.nop * b.1 by rw [Nat.mul_comm _ a.1, Nat.mul_comm _ b.1]; omega)
    exact Prod.ext e1 e2
  have hq' : (flavOps p).foldlM (fun b a => ((mesonOp g J p conf a.1 a.2 (gaussian_smear_eo g J.ji J.jq J.jv ori (EoP.pasteFld g J.jq conf) p.gauss_kappa p.gauss_niter_src) temp0).bind fun source =>
      ((mult_Minv ok eo J.ji J.jq J.jv J.jc J.junk conf (p.backfield a.1) (p.mass a.1) p.residue source).toOption).bind fun sol =>
        some (gaussian_smear_eo g J.ji J.jq J.jv sol (EoP.pasteFld g J.jq conf) p.gauss_kappa p.gauss_niter_snk)).bind fun v => some (Function.update b (a.1 * p.nop + a.2) v)) old.1 = some q := by
    rw [← hq]
    congr 1
    funext b a
    simp only [Option.bind_assoc, Option.bind_some]
  have hq0' : (flavOps p).foldlM (fun b a => (mesonOp g J p conf a.1 a.2 (q (a.1 * p.nop + 0)) temp0).bind fun v => some (Function.update b (a.1 * p.nop + a.2) v)) old.2 = some q0 := hq0
  intro f hf o ho
  have hmem : (f, o) ∈ flavOps p := List.pair_mem_product.2 ⟨List.mem_range.2 hf, List.mem_range.2 ho⟩
  have k1 := foldM_upd (fun a : Nat × Nat => a.1 * p.nop + a.2) _ (flavOps p) hnd hinj _ _ hq' _ hmem
  have k2 := foldM_upd (fun a : Nat × Nat => a.1 * p.nop + a.2) _ (flavOps p) hnd hinj _ _ hq0' _ hmem
  simp only at k1 k2
  obtain ⟨source, s1, k1⟩ := Option.bind_eq_some_iff.1 k1
  obtain ⟨sol, s2, k1⟩ := Option.bind_eq_some_iff.1 k1
  have s3 : mult_Minv ok eo J.ji J.jq J.jv J.jc J.junk conf (p.backfield f) (p.mass f) p.residue source = .ok sol := by
    cases hx : mult_Minv ok eo J.ji J.jq J.jv J.jc J.junk conf (p.backfield f) (p.mass f) p.residue source with
    | error e => rw [hx] at s2; cases s2
    | ok s => rw [hx] at s2; cases s2; rfl
  refine ⟨⟨globEo g source, globEo g sol, C62_Minv ok eo _ _ _ _ _ _ _ _ (hm f hf) _ _ _ s3, fun c hc => ?_, fun c hc => ?_⟩, fun c hc => ?_⟩
  · rw [mesonOp_eq ok eo J p conf f o _ _ _ s1 c hc]
    have hs := fun c hc => C62_smear ok eo J.ji J.jq J.jv ori conf p.gauss_kappa p.gauss_niter_src (c := c) hc
    unfold mesonOpG stagOp shiftOp
    congr 4
    refine List.map_congr_left fun l _ => ?_
    exact pathShift_congr ok (fun _ _ => rfl) l hs c hc
  · have := Option.some.inj k1
    show globEo g (q (f * p.nop + o)) c = _
    rw [← this, C62_smear ok eo _ _ _ _ _ _ _ hc]
  · have := mesonOp_eq ok eo J p conf f o _ _ _ k2 c hc
    exact this

/-! ### Contractions -/

theorem loc_contr_eq (J : Junk) (jz : ℂ) (dir : Dir) (q0s q : EoCol) {c : Coords} (hc : c ∈ box g.L) :
    loc_contr g J jz dir q0s q (getLoclxAndRankOfCoords g c).1 (itransp g dir fun mu => c mu % g.loc mu) = star (globEo g q0s c) ⬝ᵥ globEo g q c := by
  obtain ⟨rk, e, l, hrk, hlv, hm, hl, hs, hF⟩ := site_data ok eo hc
  -- local coordinates of a local site
  have hloc : ∀ i < g.locVol, (fun mu => (((locCoordOfLoclx g i).getD fun mu => (J.jc mu : Int)) mu).toNat) = coordOfLx i g.loc := by
    intro i hi
    have hlt := (coordOfLx_spec (loc_pos ok) (by rwa [← locVol_eq ok] : i < volOfLx g.loc)).1
    have hin : ∀ mu, Inside g (fun mu => (coordOfLx i g.loc mu : Int)) mu := by
      intro mu; have := hlt mu; simp only [Inside]; omega
    have hi2 : idx g (fun mu => (coordOfLx i g.loc mu : Int)) = i := by
      rw [idx_loc ok hin]
      have : nat (fun mu => (coordOfLx i g.loc mu : Int)) = coordOfLx i g.loc := by funext mu; simp [nat]
      rw [this]
      exact (C01_lxOfCoord_coordOfLx g.loc (loc_pos ok) i (by rwa [← locVol_eq ok])).2
    have := locCoord_table ok hin
    rw [hi2] at this
    rw [this]
    funext mu
    simp
  have hlt : ∀ i < g.locVol, ∀ mu, coordOfLx i g.loc mu < g.loc mu := fun i hi mu => (coordOfLx_spec (loc_pos ok) (by rwa [← locVol_eq ok])).1 mu
  have hkey : ∀ s ∈ eoSites g, ∀ t ∈ eoSites g,
      itransp g dir (fun mu => (((locCoordOfLoclx g ((loclxOfLoceo g (coordOfLx rk g.R) s.1 s.2).getD J.ji)).getD fun mu => (J.jc mu : Int)) mu).toNat) =
      itransp g dir (fun mu => (((locCoordOfLoclx g ((loclxOfLoceo g (coordOfLx rk g.R) t.1 t.2).getD J.ji)).getD fun mu => (J.jc mu : Int)) mu).toNat) → s = t := by
    intro s hs t ht hst
    refine eo_key_inj ok eo J.ji (coordOfLx rk g.R) s hs t ht ?_
    obtain ⟨l1, a1, a2, -⟩ := eo_key ok eo J.ji (coordOfLx rk g.R) hs
    obtain ⟨l2, b1, b2, -⟩ := eo_key ok eo J.ji (coordOfLx rk g.R) ht
    rw [a1, b1, Option.getD_some, Option.getD_some] at hst ⊢
    rw [hloc l1 a2, hloc l2 b2] at hst
    have := itransp_inj dir (hlt l1 a2) (hlt l2 b2) hst
    have e1 := (C01_lxOfCoord_coordOfLx g.loc (loc_pos ok) l1 (by rwa [← locVol_eq ok])).2
    have e2 := (C01_lxOfCoord_coordOfLx g.loc (loc_pos ok) l2 (by rwa [← locVol_eq ok])).2
    rw [this] at e1
    exact e1.symm.trans e2
  have := fold_upd (fun s : Nat × Nat => itransp g dir (fun mu => (((locCoordOfLoclx g ((loclxOfLoceo g (coordOfLx rk g.R) s.1 s.2).getD J.ji)).getD fun mu => (J.jc mu : Int)) mu).toNat))
    (fun (_ : ℂ) s => star (q0s rk s.1 s.2) ⬝ᵥ q rk s.1 s.2) (eoSites g) eoSites_nodup hkey (fun _ => jz) (par c, e) hm
  simp only [hl, Option.getD_some] at this
  rw [hloc l hlv] at this
  have h2 : (fun mu => c mu % g.loc mu) = coordOfLx l g.loc := funext fun mu => ((site_split ok hc hs).2 mu).symm
  rw [hs, h2, hF, hF, ← this]
  rfl

omit ok eo in
theorem addCorr_eq {L nop nflavs a b c d src : Nat} (hb : b < nflavs) (hc : c < nop) (hd : d < nop) (hs : src < L) (un corr : Nat → ℂ) :
    (∀ e < L, addCorr L nop nflavs a b c d src un corr (icombo L nop nflavs a b c d e) = corr (icombo L nop nflavs a b c d e) + un ((src + e) % L)) ∧
    ∀ a' b' c' d' e', b' < nflavs → c' < nop → d' < nop → e' < L → ((a', b'), (c', d')) ≠ ((a, b), (c, d)) →
      addCorr L nop nflavs a b c d src un corr (icombo L nop nflavs a' b' c' d' e') = corr (icombo L nop nflavs a' b' c' d' e') := by
  have hdist : ∀ t : Nat, (((t : Int) - src + L) % L).toNat < L := by
    intro t
    have := Int.emod_lt_of_pos ((t : Int) - src + L) (by omega : (0 : Int) < L)
    have := Int.emod_nonneg ((t : Int) - src + L) (by omega : (L : Int) ≠ 0)
    omega
  have hval : ∀ t < L, (((t : Int) - src + L) % L).toNat = if src ≤ t then t - src else t + L - src := by
    intro t ht
    split
    · rename_i h
      have : ((t : Int) - src + L) % L = t - src := by
        rw [Int.add_emod_right, Int.emod_eq_of_lt (by omega) (by omega)]
      omega
    · rename_i h
      rw [Int.emod_eq_of_lt (by omega) (by omega)]; omega
  constructor
  · intro e he
    have ht : (src + e) % L < L := Nat.mod_lt _ (by omega)
    have hk : ((((src + e) % L : Nat) : Int) - src + L) % L = e := by
      have h1 := hval _ ht
      have h2 : (src + e) % L = if src + e < L then src + e else src + e - L := by
        split
        · rename_i h; exact Nat.mod_eq_of_lt h
        · rename_i h
          rw [Nat.mod_eq_sub_mod (by omega), Nat.mod_eq_of_lt (by omega)]
      have h3 := Int.emod_nonneg ((((src + e) % L : Nat) : Int) - src + L) (by omega : (L : Int) ≠ 0)
      by_cases h : src + e < L
      · rw [if_pos h] at h2
        rw [if_pos (by omega)] at h1
        omega
      · rw [if_neg h] at h2
        rw [if_neg (by omega)] at h1
        omega
    have := fold_upd (fun t : Nat => icombo L nop nflavs a b c d (((t : Int) - src + L) % L).toNat) (fun (v : ℂ) t => v + un t) (List.range L) List.nodup_range (by
      intro t ht t' ht' h
      rw [List.mem_range] at ht ht'
      have h5 := (C62_icombo_injective hb hb hc hc hd hd (hdist t) (hdist t') h).2.2.2.2
      rw [hval t ht, hval t' ht'] at h5
      split at h5 <;> split at h5 <;> omega) corr ((src + e) % L) (List.mem_range.2 ht)
    beta_reduce at this
    rw [hk, Int.toNat_natCast] at this
    exact this
  · intro a' b' c' d' e' hb' hc' hd' he' hne
    refine fold_keep (fun t : Nat => icombo L nop nflavs a b c d (((t : Int) - src + L) % L).toNat) (fun (v : ℂ) t => v + un t) (List.range L) _ ?_ corr
    intro t _ h
    obtain ⟨h1, h2, h3, h4, -⟩ := C62_icombo_injective hb hb' hc hc' hd hd' (hdist t) he' h
    subst h1; subst h2; subst h3; subst h4
    exact hne rfl

/-- the contraction of a hit, on the slice at distance `d` from the source -/
def contraction (g : Geo) (dir : Dir) (src d : Nat) (q0 q : Coords → Col) : ℂ := dot ((box g.L).filter fun c => c dir = (src + d) % g.L dir) q0 q

/-- C62: the contractions of a hit never fail, and add to the correlator of each combination the product of the two propagators summed over the slice -/
theorem C62_meson_contract (J : Junk) (jz : ℂ) (p : MesonPars) (sched : Nat → Nat → List Nat) (hl : ∀ rk, Reduce.Legal (sched rk)) (src : Nat) (hs : src < g.L p.dir)
    (quark quark0s : Nat → EoCol) (corr : Nat → ℂ) :
    ∃ corr', mesonContract g J jz p sched src quark quark0s corr = some corr' ∧
      ∀ fso < p.nflavs, ∀ fsi < p.nflavs, ∀ oso < p.nop, ∀ osi < p.nop, ∀ d < g.L p.dir,
        corr' (icombo (g.L p.dir) p.nop p.nflavs fso fsi oso osi d) = corr (icombo (g.L p.dir) p.nop p.nflavs fso fsi oso osi d) +
          contraction g p.dir src d (globEo g (quark0s (fsi * p.nop + osi))) (globEo g (quark (fso * p.nop + oso))) := by
  have hun : ∀ i j : Nat, ∃ un, glb_reduce g.nranks sched (loc_contr g J jz p.dir (quark0s i) (quark j)) g.locVol (g.L p.dir) (g.loc p.dir) (firstCoord g J.jc p.dir) = some un ∧
      ∀ k < g.L p.dir, un k = ∑ c ∈ (box g.L).filter (fun c => c p.dir = k), star (globEo g (quark0s i) c) ⬝ᵥ globEo g (quark j) c := fun i j =>
    C62_slices ok sched hl J.jc p.dir _ (fun c => star (globEo g (quark0s i) c) ⬝ᵥ globEo g (quark j) c) fun c hc => loc_contr_eq ok eo J jz p.dir _ _ hc
  choose un hun1 hun2 using hun
  unfold mesonContract
  set T := (List.range p.nflavs ×ˢ List.range p.nflavs) ×ˢ (List.range p.nop ×ˢ List.range p.nop) with hT
  have hTmem : ∀ t : (Nat × Nat) × (Nat × Nat), t ∈ T ↔ (t.1.1 < p.nflavs ∧ t.1.2 < p.nflavs) ∧ (t.2.1 < p.nop ∧ t.2.2 < p.nop) := by
    rintro ⟨⟨a, b⟩, c, d⟩
    rw [hT, List.mem_product, List.mem_product, List.mem_product]
    simp only [List.mem_range]
  have hTnd : T.Nodup := (List.nodup_range.product List.nodup_range).product (List.nodup_range.product List.nodup_range)
  have key : ∀ l : List ((Nat × Nat) × (Nat × Nat)), l.Nodup → (∀ t ∈ l, t ∈ T) → ∀ corr : Nat → ℂ, ∃ corr', l.foldlM (fun (corr : Nat → ℂ) t =>
      (glb_reduce g.nranks sched (loc_contr g J jz p.dir (quark0s (t.1.2 * p.nop + t.2.2)) (quark (t.1.1 * p.nop + t.2.1))) g.locVol (g.L p.dir) (g.loc p.dir) (firstCoord g J.jc p.dir)).bind fun un =>
        some (addCorr (g.L p.dir) p.nop p.nflavs t.1.1 t.1.2 t.2.1 t.2.2 src un corr)) corr = some corr' ∧
      ∀ t ∈ T, ∀ d < g.L p.dir, corr' (icombo (g.L p.dir) p.nop p.nflavs t.1.1 t.1.2 t.2.1 t.2.2 d) = corr (icombo (g.L p.dir) p.nop p.nflavs t.1.1 t.1.2 t.2.1 t.2.2 d) +
        if t ∈ l then contraction g p.dir src d (globEo g (quark0s (t.1.2 * p.nop + t.2.2))) (globEo g (quark (t.1.1 * p.nop + t.2.1))) else 0 := by
    intro l
    induction l with
    | nil => intro _ _ corr; exact ⟨corr, rfl, fun t _ d _ => by simp⟩
    | cons t0 l ih =>
      intro hnd hsub corr
      have hnd' := List.nodup_cons.1 hnd
      have ht0 := (hTmem t0).1 (hsub t0 List.mem_cons_self)
      obtain ⟨corr', h1, h2⟩ := ih hnd'.2 (fun t ht => hsub t (List.mem_cons_of_mem _ ht))
        (addCorr (g.L p.dir) p.nop p.nflavs t0.1.1 t0.1.2 t0.2.1 t0.2.2 src (un (t0.1.2 * p.nop + t0.2.2) (t0.1.1 * p.nop + t0.2.1)) corr)
      obtain ⟨a1, a2⟩ := addCorr_eq (a := t0.1.1) ht0.1.2 ht0.2.1 ht0.2.2 hs (un (t0.1.2 * p.nop + t0.2.2) (t0.1.1 * p.nop + t0.2.1)) corr
      refine ⟨corr', by rw [List.foldlM_cons, hun1]; exact h1, fun t ht d hd => ?_⟩
      rw [h2 t ht d hd]
      by_cases he : t = t0
      · subst he
        rw [if_neg hnd'.1, if_pos List.mem_cons_self, add_zero, a1 d hd, hun2 _ _ _ (Nat.mod_lt _ (by omega))]
        rfl
      · have htm := (hTmem t).1 ht
        rw [a2 t.1.1 t.1.2 t.2.1 t.2.2 d htm.1.2 htm.2.1 htm.2.2 hd he]
        congr 1
        by_cases hin : t ∈ l
        · rw [if_pos hin, if_pos (List.mem_cons_of_mem _ hin)]
        · rw [if_neg hin, if_neg (fun h => (List.mem_cons.1 h).elim he hin)]
  obtain ⟨corr', h1, h2⟩ := key T hTnd (fun t ht => ht) corr
  refine ⟨corr', h1, fun fso h3 fsi h4 oso h5 osi h6 d hd => ?_⟩
  have hm : ((fso, fsi), (oso, osi)) ∈ T := (hTmem _).2 ⟨⟨h3, h4⟩, h5, h6⟩
  have := h2 _ hm d hd
  rw [if_pos hm] at this
  exact this

/-- C62: the meson correlators on any grid of ranks: the array of the correlators contains, for each pair of flavours and of operators and for each
distance, the sum over the hits of the product of the two propagators, summed over the slice at that distance from the source (with the
periodicity of the lattice).  The scratch fields and the order of the parallel loops have no influence. -/
theorem C62_meson_corr (J : Junk) (jz : ℂ) (p : MesonPars) (hm : ∀ f < p.nflavs, p.mass f ≠ 0) (sched : Nat → Nat → List Nat) (hl : ∀ rk, Reduce.Legal (sched rk)) (conf : EoConf) (temp0 : EoCol)
    (old : (Nat → EoCol) × (Nat → EoCol)) (hits : List (Nat × EoCol)) (hsrc : ∀ h ∈ hits, h.1 < g.L p.dir) (corr : Nat → ℂ)
    (h : compute_meson_corr ok eo J jz p sched conf temp0 old hits = some corr) :
    ∃ props : List ((Nat → Nat → Coords → Col) × (Nat → Nat → Coords → Col)),
      List.Forall₂ (fun h q => IsHit g p conf h.2 q.1 q.2) hits props ∧
      ∀ fso < p.nflavs, ∀ fsi < p.nflavs, ∀ oso < p.nop, ∀ osi < p.nop, ∀ d < g.L p.dir,
        corr (icombo (g.L p.dir) p.nop p.nflavs fso fsi oso osi d) =
          ((hits.zip props).map fun hq => contraction g p.dir hq.1.1 d (hq.2.2 fsi osi) (hq.2.1 fso oso)).sum := by
  unfold compute_meson_corr at h
  rw [Option.map_eq_some_iff] at h
  obtain ⟨s, h, rfl⟩ := h
  have key : ∀ (hits : List (Nat × EoCol)) (_ : ∀ h ∈ hits, h.1 < g.L p.dir) (s0 s : ((Nat → EoCol) × (Nat → EoCol)) × (Nat → ℂ))
      (_ : hits.foldlM (fun (s : ((Nat → EoCol) × (Nat → EoCol)) × (Nat → ℂ)) (h : Nat × EoCol) => do
        let qq ← mesonHit ok eo J p conf temp0 s.1 h.2
        let corr ← mesonContract g J jz p sched h.1 qq.1 qq.2 s.2
        pure (qq, corr)) s0 = some s),
      ∃ props : List ((Nat → Nat → Coords → Col) × (Nat → Nat → Coords → Col)),
        List.Forall₂ (fun h q => IsHit g p conf h.2 q.1 q.2) hits props ∧
        ∀ fso < p.nflavs, ∀ fsi < p.nflavs, ∀ oso < p.nop, ∀ osi < p.nop, ∀ d < g.L p.dir,
          s.2 (icombo (g.L p.dir) p.nop p.nflavs fso fsi oso osi d) = s0.2 (icombo (g.L p.dir) p.nop p.nflavs fso fsi oso osi d) +
            ((hits.zip props).map fun hq => contraction g p.dir hq.1.1 d (hq.2.2 fsi osi) (hq.2.1 fso oso)).sum := by
    intro hits
    induction hits with
    | nil =>
      intro _ s0 s h
      cases h
      exact ⟨[], .nil, fun _ _ _ _ _ _ _ _ _ _ => by simp⟩
    | cons h0 hits ih =>
      intro hsrc s0 s h
      rw [List.foldlM_cons] at h
      simp only [Option.bind_eq_bind, Option.pure_def] at h
      obtain ⟨s1, h1, h⟩ := Option.bind_eq_some_iff.1 h
      obtain ⟨qq, hq, h1⟩ := Option.bind_eq_some_iff.1 h1
      obtain ⟨c1, k1, k2⟩ := C62_meson_contract ok eo J jz p sched hl h0.1 (hsrc h0 List.mem_cons_self) qq.1 qq.2 s0.2
      rw [k1] at h1
      cases h1
      obtain ⟨props, f1, f2⟩ := ih (fun h hh => hsrc h (List.mem_cons_of_mem _ hh)) _ s h
      refine ⟨(fun f o => globEo g (qq.1 (f * p.nop + o)), fun f o => globEo g (qq.2 (f * p.nop + o))) :: props, .cons (C62_meson_hit ok eo J p conf temp0 s0.1 qq h0.2 hm hq) f1, fun fso a1 fsi a2 oso a3 osi a4 d a5 => ?_⟩
      rw [f2 fso a1 fsi a2 oso a3 osi a4 d a5, List.zip_cons_cons, List.map_cons, List.sum_cons]
      simp only
      rw [k2 fso a1 fsi a2 oso a3 osi a4 d a5, add_assoc]
  obtain ⟨props, f1, f2⟩ := key hits hsrc _ s h
  refine ⟨props, f1, fun fso a1 fsi a2 oso a3 osi a4 d a5 => ?_⟩
  rw [f2 fso a1 fsi a2 oso a3 osi a4 d a5]
  simp

end

/-! ### The hypotheses are met -/

/-- 8 ranks -/
def mGeo : Geo := ⟨![8, 4, 4, 8], ![2, 1, 2, 2]⟩

theorem mGeo_ok : mGeo.Ok := by decide
theorem mGeo_eo : EoOk mGeo := by decide

/-- the inversion of a source constant on the even sites and zero on the odd ones returns, for any configuration and background -/
theorem mGeo_Minv (ji : Nat) (jq : Quad) (jv : Col) (jc : Coords) (junk : Dir → Int) (conf : EoConf) (u1b : EoU1) (v : Col) (hv : v ≠ 0) (source : EoCol)
    (hsrc : ∀ c ∈ box mGeo.L, globEo mGeo source c = if par c = 0 then v else 0) :
    ∃ sol, mult_Minv mGeo_ok mGeo_eo ji jq jv jc junk conf u1b (1 / 100) (1 / 10 ^ 20) source = .ok sol := by
  unfold mult_Minv
  refine Inv.C42_inv_stD_returns mGeo_ok mGeo_eo ji jq jv _ _ (by norm_num) _ ?_ _ (by norm_num) _ ?_
  · have : (boxP mGeo 0).card ≤ (box mGeo.L).card := Finset.card_le_card fun c hc => (mem_boxP.1 hc).1
    have h2 : (box mGeo.L).card = 1024 := by
      rw [show box mGeo.L = Fintype.piFinset fun mu => Finset.range (mGeo.L mu) from rfl, Fintype.card_piFinset]
      simp [Fin.prod_univ_four, mGeo]
    omega
  have hev : ![0, 0, 0, 0] ∈ boxP mGeo 0 := by rw [mem_boxP]; exact ⟨mem_box.2 (by decide), by decide⟩
  refine ⟨_, hev, ?_⟩
  generalize add_or_rem_backfield_eo mGeo ji jc junk conf false u1b false = cf
  have h0 : globEo mGeo source ![0, 0, 0, 0] = v := by rw [hsrc _ (mem_boxP.1 hev).1, if_pos (mem_boxP.1 hev).2]
  have h1 : ∀ c ∈ boxP mGeo 1, globEo mGeo source c = 0 := fun c hc => by
    rw [hsrc _ (mem_boxP.1 hc).1, if_neg (by rw [(mem_boxP.1 hc).2]; decide)]
  have hw : hop mGeo (globEo mGeo cf) (globEo mGeo source) ![0, 0, 0, 0] = hop mGeo (globEo mGeo cf) (fun d => (0 : ℂ) • (0 : Col)) ![0, 0, 0, 0] := by
    refine hop_congr fun mu => ?_
    rw [h1 _ (tshift_mem_boxP mGeo_ok mGeo_eo hev mu (.inl rfl)), h1 _ (tshift_mem_boxP mGeo_ok mGeo_eo hev mu (.inr rfl))]
    simp
  rw [h0, hw, Inv.hop_smul mGeo (globEo mGeo cf) 0 (fun _ => 0), zero_smul, smul_zero, sub_zero]
  simp [hv]

/-- one flavour, and the pion of Goldstone -/
def mPars (u1b : EoU1) : MesonPars := ⟨0, 1, fun _ => (15, 15), 1, 1 / 2, 0, 0, 1 / 10 ^ 20, fun _ => 1 / 100, fun _ => u1b⟩

/-- a source constant on the even sites -/
def mSource (v : Col) : EoCol := fun _ p _ => if p = 0 then v else 0

/-- the measure returns, for any configuration and background, with two hits starting at different times -/
example (J : Junk) (jz : ℂ) (sched : Nat → Nat → List Nat) (hl : ∀ rk, Reduce.Legal (sched rk)) (conf : EoConf) (u1b : EoU1) (temp0 : EoCol) (old : (Nat → EoCol) × (Nat → EoCol)) (v w : Col) (hv : v ≠ 0) (hw : w ≠ 0) :
    (∀ f < (mPars u1b).nflavs, (mPars u1b).mass f ≠ 0) ∧ (∀ h ∈ [(3, mSource v), (5, mSource w)], h.1 < mGeo.L (mPars u1b).dir) ∧
    ∃ corr, compute_meson_corr mGeo_ok mGeo_eo J jz (mPars u1b) sched conf temp0 old [(3, mSource v), (5, mSource w)] = some corr := by
  refine ⟨fun f _ => by norm_num [mPars], by simp [mPars, mGeo], ?_⟩
  have hs : ∀ v : Col, ∀ c ∈ box mGeo.L, globEo mGeo (mSource v) c = if par c = 0 then v else 0 := fun v c hc => by
    obtain ⟨rk, e, l, h1, h2, hr, hl, hx, hF, hG⟩ := eoSiteOf mGeo_ok mGeo_eo hc
    rw [hF]; rfl
  have hop : ∀ inp, ∃ out, mesonOp mGeo J (mPars u1b) conf 0 0 inp temp0 = some out ∧ ∀ c ∈ box mGeo.L, globEo mGeo out c = globEo mGeo inp c := by
    intro inp
    have e1 : mesonShift (mPars u1b) 0 = 0 := show xor4 15 15 = 0 by decide
    have e2 : mesonMask (mPars u1b) 0 = 0 := show form_stag_meson_pattern_with_g5g5 15 15 = 0 by decide
    unfold mesonOp
    rw [e1, e2]
    refine ⟨put_stag_phases mGeo J.ji J.jc inp 0, rfl, fun c hc => ?_⟩
    rw [C62_phases mGeo_ok mGeo_eo J.ji J.jc inp 0 hc, show bits 0 = ∅ by decide]
    simp [sgn]
  have hhit : ∀ v : Col, v ≠ 0 → ∀ old, ∃ qq, mesonHit mGeo_ok mGeo_eo J (mPars u1b) conf temp0 old (mSource v) = some qq := by
    intro v hv old
    obtain ⟨out, k1, k2⟩ := hop (mSource v)
    obtain ⟨sol, k3⟩ := mGeo_Minv J.ji J.jq J.jv J.jc J.junk conf u1b v hv out (fun c hc => by rw [k2 c hc, hs v c hc])
    obtain ⟨out2, k4, -⟩ := hop sol
    have e0 : ∀ cf x, gaussian_smear_eo mGeo J.ji J.jq J.jv x cf (mPars u1b).gauss_kappa 0 = x := fun cf x => by unfold gaussian_smear_eo; rw [if_pos (le_refl _)]
    refine ⟨(Function.update old.1 0 sol, Function.update old.2 0 out2), ?_⟩
    unfold mesonHit
    rw [show flavOps (mPars u1b) = [(0, 0)] from rfl, show (mPars u1b).gauss_niter_src = 0 from rfl, show (mPars u1b).gauss_niter_snk = 0 from rfl]
    simp only [List.foldlM_cons, List.foldlM_nil, e0, k1, Option.bind_eq_bind, Option.bind_some, Option.pure_def]
    rw [show (mPars u1b).backfield 0 = u1b from rfl, show (mPars u1b).mass 0 = 1 / 100 from rfl, show (mPars u1b).residue = 1 / 10 ^ 20 from rfl, k3]
    simp [Except.toOption, k4]
  obtain ⟨q1, a1⟩ := hhit v hv old
  obtain ⟨c1, a2, -⟩ := C62_meson_contract mGeo_ok mGeo_eo J jz (mPars u1b) sched hl 3 (show 3 < 8 by decide) q1.1 q1.2 (fun _ => 0)
  obtain ⟨q2, a3⟩ := hhit w hw q1
  obtain ⟨c2, a4, -⟩ := C62_meson_contract mGeo_ok mGeo_eo J jz (mPars u1b) sched hl 5 (show 5 < 8 by decide) q2.1 q2.2 c1
  refine ⟨c2, ?_⟩
  unfold compute_meson_corr
  simp [a1, a2, a3, a4]

/-- a legal schedule, a mask with shifts, an operator which is neither symmetric nor the identity, a gauge transformation which is not trivial -/
example : (∀ rk, Reduce.Legal ((fun _ n => List.range n : Nat → Nat → List Nat) rk)) ∧ bits 6 = {1, 2} ∧
    (bits (xor4 3 0) ∩ bits (form_stag_op_pattern 3 0)).card % 2 = 1 ∧ AllUnitary mGeo (fun c => if c 0 = 0 then 1 else -1) :=
  ⟨fun _ n => List.Perm.refl _, by decide, by decide, fun c _ => by beta_reduce; split <;> simp⟩

end

end Nissa.Stag
