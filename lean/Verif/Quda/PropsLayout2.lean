import Verif.Quda.PropsLayout1
import Mathlib.Data.Fintype.EquivFin

set_option linter.all false

/-! C79: fields exchanged with QUDA. -/

namespace Nissa.Quda

open Nissa.Lx Nissa.Lx.Geo

variable {g : Geo}

section
variable (ok : g.Ok) (eo : EoOk g)
include ok eo

theorem quda_def (r : Coords) {i : Nat} (hi : i < g.locVol) : ∃ q, qudaOfLoclx g r i = some q ∧ q < g.locVol := by
  obtain ⟨x, hx, rfl⟩ := site_coord ok eo hi
  have := quda_of_site ok eo r x hx
  exact ⟨_, this.1, this.2⟩

theorem loclxOfQuda_spec (r : Coords) {i q : Nat} (hi : i < g.locVol) (h : qudaOfLoclx g r i = some q) :
    loclxOfQuda g r q = some i := by
  unfold loclxOfQuda
  refine (writeLoop_spec _ _ _ _ _).1 i ⟨i, List.mem_range.2 hi, h⟩ ?_
  intro a ha h'
  exact quda_inj ok eo r (List.mem_range.1 ha) hi h' h

theorem quda_surj (r : Coords) {q : Nat} (hq : q < g.locVol) : ∃ i, i < g.locVol ∧ qudaOfLoclx g r i = some q := by
  let f : Fin g.locVol → Fin g.locVol := fun i =>
    ⟨(quda_def ok eo r i.2).choose, (quda_def ok eo r i.2).choose_spec.2⟩
  have hf : ∀ i : Fin g.locVol, qudaOfLoclx g r i = some (f i).val := fun i => (quda_def ok eo r i.2).choose_spec.1
  have hinj : Function.Injective f := by
    intro i j h
    have h1 := hf i
    have h2 := hf j
    rw [← h] at h2
    exact Fin.ext (quda_inj ok eo r i.2 j.2 h1 h2)
  obtain ⟨i, hi⟩ := (Finite.injective_iff_surjective.1 hinj) ⟨q, hq⟩
  exact ⟨i, i.2, by rw [hf i, hi]⟩

end

/-- C79: the two tables are the inverse of each other: each site of the rank has its own place in QUDA, and no place of QUDA is
left empty. -/
theorem C79_bijection (g : Geo) (ok : g.Ok) (eo : EoOk g) (r : Coords) :
    (∀ i < g.locVol, ∃ q < g.locVol, qudaOfLoclx g r i = some q ∧ loclxOfQuda g r q = some i) ∧
    (∀ q < g.locVol, ∃ i < g.locVol, loclxOfQuda g r q = some i ∧ qudaOfLoclx g r i = some q) := by
  constructor
  · intro i hi
    obtain ⟨q, h1, h2⟩ := quda_def ok eo r hi
    exact ⟨q, h2, h1, loclxOfQuda_spec ok eo r hi h1⟩
  · intro q hq
    obtain ⟨i, h1, h2⟩ := quda_surj ok eo r hq
    exact ⟨i, h1, loclxOfQuda_spec ok eo r h1 h2, h2⟩

theorem mem_links (n : Nat) (a : Nat × Dir) : a ∈ links n ↔ a.1 < n := by
  unfold links
  simp only [List.mem_flatMap, List.mem_range, List.mem_map]
  constructor
  · rintro ⟨i, hi, nu, -, rfl⟩; exact hi
  · intro h; exact ⟨a.1, h, a.2, mem_dirs _, rfl⟩

theorem mem_eoSites (n : Nat) (a : Nat × Nat) : a ∈ eoSites n ↔ a.1 < 2 ∧ a.2 < n := by
  unfold eoSites
  simp only [List.mem_flatMap, List.mem_map, List.mem_range]
  constructor
  · rintro ⟨p, hp, e, he, rfl⟩
    simp at hp
    exact ⟨by rcases hp with rfl | rfl <;> simp, he⟩
  · rintro ⟨h1, h2⟩
    exact ⟨a.1, by simp; omega, a.2, h2, rfl⟩

theorem outDir_dirOf (d : Dir) : outDir (dirOf d) = d := by revert d; decide
theorem dirOf_outDir (d : Dir) : dirOf (outDir d) = d := by revert d; decide

section
variable (ok : g.Ok) (eo : EoOk g)
include ok eo

theorem remapConf_spec {V : Type} (r : Coords) (inp : Nat → Dir → V) (d : Dir) {i q : Nat} (hi : i < g.locVol)
    (h : qudaOfLoclx g r i = some q) : remapConf g r inp d q = some (inp i (dirOf d)) := by
  unfold remapConf
  refine (writeLoop_spec _ _ _ _ _).1 _ ⟨(i, dirOf d), (mem_links _ _).2 hi, ?_⟩ ?_
  · dsimp only; rw [if_pos (outDir_dirOf d)]; exact h
  · rintro ⟨j, nu⟩ hj hk
    dsimp only at hk ⊢
    by_cases ho : outDir nu = d
    · rw [if_pos ho] at hk
      have := quda_inj ok eo r ((mem_links _ _).1 hj) hi hk h
      subst this; subst ho; rw [dirOf_outDir]
    · rw [if_neg ho] at hk; cases hk

theorem remapSpin_spec {V : Type} (r : Coords) (inp : Nat → V) {i q : Nat} (hi : i < g.locVol)
    (h : qudaOfLoclx g r i = some q) : remapSpin g r inp q = some (inp i) := by
  unfold remapSpin
  refine (writeLoop_spec _ _ _ _ _).1 _ ⟨i, List.mem_range.2 hi, h⟩ ?_
  intro j hj hk
  rw [quda_inj ok eo r (List.mem_range.1 hj) hi hk h]

theorem remapSpinBack_spec {V : Type} (r : Coords) (inp : Nat → V) {i q : Nat} (hi : i < g.locVol) (hq : q < g.locVol)
    (h : qudaOfLoclx g r i = some q) : remapSpinBack g r inp i = some (inp q) := by
  unfold remapSpinBack
  have h0 := loclxOfQuda_spec ok eo r hi h
  refine (writeLoop_spec _ _ _ _ _).1 _ ⟨q, List.mem_range.2 hq, h0⟩ ?_
  intro j hj hk
  obtain ⟨i', hi', h'⟩ := quda_surj ok eo r (List.mem_range.1 hj)
  rw [loclxOfQuda_spec ok eo r hi' h'] at hk
  have : i' = i := Option.some.inj hk
  subst this
  rw [h] at h'
  rw [Option.some.inj h']

/-- Site of parity p and index e. -/
theorem eo_site (r : Coords) {i : Nat} (hi : i < g.locVol) :
    ∃ p e, p < 2 ∧ e < locVolh g ∧ loclxParity g r i = some p ∧ loceoOfLoclx g r i = some e ∧ loclxOfLoceo g r p e = some i := by
  obtain ⟨c, p, e, h1, h2, h3, h4, h5, h6, -⟩ := C07_eo_of_lx g ok eo r i (by omega)
  exact ⟨p, e, by omega, h6.1 hi, h3, h4, h5⟩

theorem eo_inj (r : Coords) {p e i : Nat} (hp : p < 2) (he : e < locVolh g) (h : loclxOfLoceo g r p e = some i) :
    i < g.locVol ∧ loclxParity g r i = some p ∧ loceoOfLoclx g r i = some e := by
  obtain ⟨l, h1, h2, h3, h4, h5⟩ := C07_lx_of_eo g ok eo r p e hp
    (by unfold locVolh at he; omega)
  rw [h1] at h
  have := Option.some.inj h
  subst this
  exact ⟨h5 he, h3, h4⟩

theorem remapColor_spec {V : Type} (r : Coords) (inp : Nat → Nat → V) {i q p e : Nat} (hi : i < g.locVol)
    (h : qudaOfLoclx g r i = some q) (hp : loclxParity g r i = some p) (he : loceoOfLoclx g r i = some e) :
    remapColor g r inp q = some (inp p e) := by
  obtain ⟨p', e', b1, b2, b3, b4, b5⟩ := eo_site ok eo r hi
  rw [hp] at b3; rw [he] at b4
  have ep := Option.some.inj b3; have ee := Option.some.inj b4
  subst ep; subst ee
  unfold remapColor
  refine (writeLoop_spec _ _ _ _ _).1 _ ⟨(p, e), (mem_eoSites _ _).2 ⟨b1, b2⟩, ?_⟩ ?_
  · dsimp only; rw [b5]; exact h
  · rintro ⟨p2, e2⟩ hm hk
    dsimp only at hk ⊢
    obtain ⟨m1, m2⟩ := (mem_eoSites _ _).1 hm
    cases hl : loclxOfLoceo g r p2 e2 with
    | none => rw [hl] at hk; cases hk
    | some j =>
      rw [hl] at hk
      obtain ⟨k1, k2, k3⟩ := eo_inj ok eo r m1 m2 hl
      have := quda_inj ok eo r k1 hi hk h
      subst this
      rw [hp] at k2; rw [he] at k3
      rw [Option.some.inj k2, Option.some.inj k3]

theorem remapConfEo_spec {V : Type} (r : Coords) (inp : Nat → Nat → Dir → V) (d : Dir) {i q p e : Nat} (hi : i < g.locVol)
    (h : qudaOfLoclx g r i = some q) (hp : loclxParity g r i = some p) (he : loceoOfLoclx g r i = some e) :
    remapConfEo g r inp d q = some (inp p e (dirOf d)) := by
  obtain ⟨p', e', b1, b2, b3, b4, b5⟩ := eo_site ok eo r hi
  rw [hp] at b3; rw [he] at b4
  have ep := Option.some.inj b3; have ee := Option.some.inj b4
  subst ep; subst ee
  unfold remapConfEo
  refine (writeLoop_spec _ _ _ _ _).1 _ ⟨((p, e), dirOf d), ?_, ?_⟩ ?_
  · simp only [List.mem_flatMap, List.mem_map]
    exact ⟨(p, e), (mem_eoSites _ _).2 ⟨b1, b2⟩, dirOf d, mem_dirs _, rfl⟩
  · dsimp only; rw [if_pos (outDir_dirOf d), b5]; exact h
  · rintro ⟨⟨p2, e2⟩, nu⟩ hm hk
    simp only [List.mem_flatMap, List.mem_map] at hm
    obtain ⟨s, hs, nu', -, heq⟩ := hm
    have hs' : s = (p2, e2) := (Prod.mk.inj heq).1
    subst hs'
    dsimp only at hk ⊢
    obtain ⟨m1, m2⟩ := (mem_eoSites _ _).1 hs
    by_cases ho : outDir nu = d
    · rw [if_pos ho] at hk
      cases hl : loclxOfLoceo g r p2 e2 with
      | none => rw [hl] at hk; cases hk
      | some j =>
        rw [hl] at hk
        obtain ⟨k1, k2, k3⟩ := eo_inj ok eo r m1 m2 hl
        have := quda_inj ok eo r k1 hi hk h
        subst this
        rw [hp] at k2; rw [he] at k3
        rw [Option.some.inj k2, Option.some.inj k3]
        subst ho; rw [dirOf_outDir]
    · rw [if_neg ho] at hk; cases hk

theorem remapColorBack_spec {V : Type} (r : Coords) (inp : Nat → V) {i q p e : Nat} (hi : i < g.locVol) (hq : q < g.locVol)
    (h : qudaOfLoclx g r i = some q) (hp : loclxParity g r i = some p) (he : loceoOfLoclx g r i = some e) :
    remapColorBack g r inp p e = some (inp q) := by
  obtain ⟨p', e', b1, b2, b3, b4, b5⟩ := eo_site ok eo r hi
  rw [hp] at b3; rw [he] at b4
  have ep := Option.some.inj b3; have ee := Option.some.inj b4
  subst ep; subst ee
  have h0 := loclxOfQuda_spec ok eo r hi h
  unfold remapColorBack
  refine (writeLoop_spec _ _ _ _ _).1 _ ⟨q, List.mem_range.2 hq, ?_⟩ ?_
  · rw [h0, Option.bind_some, if_pos hp, he]
  · intro j hj hk
    obtain ⟨i', hi', h'⟩ := quda_surj ok eo r (List.mem_range.1 hj)
    rw [loclxOfQuda_spec ok eo r hi' h', Option.bind_some] at hk
    by_cases hpp : loclxParity g r i' = some p
    · rw [if_pos hpp] at hk
      obtain ⟨p3, e3, c1, c2, c3, c4, c5⟩ := eo_site ok eo r hi'
      rw [hpp] at c3; rw [hk] at c4
      have ep := Option.some.inj c3; have ee := Option.some.inj c4
      subst ep; subst ee
      rw [b5] at c5
      have := Option.some.inj c5
      subst this
      rw [h] at h'
      rw [Option.some.inj h']
    · rw [if_neg hpp] at hk; cases hk

end

/-! ## Theorems in terms of the whole lattice -/

/-- Coordinates, in nissa, of the site which QUDA calls y in the rank which QUDA calls ρ. -/
def siteOf (g : Geo) (ρ y : Coords) : Coords := fun mu => ofQuda ρ mu * g.loc mu + ofQuda y mu

/-- A field of the whole lattice as held by the rank r: element i is that of the i-th site of the rank. -/
def Holds {V : Type} (g : Geo) (r : Coords) (inp : Nat → V) (F : Coords → V) : Prop :=
  ∀ i < g.locVol, ∀ c, glbCoordOfLoclx g r i = some c → inp i = F c

/-- The same, if the field is split in even and odd sites. -/
def HoldsEo {V : Type} (g : Geo) (r : Coords) (inp : Nat → Nat → V) (F : Coords → V) : Prop :=
  ∀ i < g.locVol, ∀ c p e, glbCoordOfLoclx g r i = some c → loclxParity g r i = some p → loceoOfLoclx g r i = some e →
    inp p e = F c

section
variable (ok : g.Ok) (eo : EoOk g)
include ok eo

theorem glb_of_site (ρ y : Coords) (hρ : ∀ d, ρ d < toQuda g.R d) (hy : ∀ d, y d < toQuda g.loc d) :
    ∃ i q, i < g.locVol ∧ qudaOfLoclx g (ofQuda ρ) i = some q ∧ q = qudaSite (toQuda g.loc) y ∧ q < g.locVol ∧
      glbCoordOfLoclx g (ofQuda ρ) i = some (siteOf g ρ y) := by
  have hx : ∀ mu, ofQuda y mu < g.loc mu := by
    intro mu
    have := hy ((![3, 0, 1, 2] : Dir → Dir) mu)
    fin_cases mu <;> exact this
  have hr : ∀ mu, ofQuda ρ mu < g.R mu := by
    intro mu
    have := hρ ((![3, 0, 1, 2] : Dir → Dir) mu)
    fin_cases mu <;> exact this
  obtain ⟨h1, h2⟩ := quda_of_site ok eo (ofQuda ρ) (ofQuda y) hx
  rw [toQuda_ofQuda] at h1 h2
  refine ⟨_, _, lxOf_lt ok eo hx, h1, rfl, h2, ?_⟩
  have hin : ∀ mu, Inside g (fun mu => (ofQuda y mu : Int)) mu := by
    intro mu; have := hx mu; simp only [Inside]; omega
  have hi := idx_loc ok hin
  have hn : nat (fun mu => (ofQuda y mu : Int)) = ofQuda y := by funext mu; simp [nat]
  rw [hn] at hi
  rw [← hi, glbCoord_table ok _ (ext_inside hin) (by rw [nOut_inside hin]; omega)]
  congr 1
  funext mu
  unfold torus siteOf
  have hL := L_eq ok (mu := mu)
  have b : ofQuda ρ mu * g.loc mu + ofQuda y mu < g.L mu := by
    rw [hL]
    have h1 : (ofQuda ρ mu + 1) * g.loc mu ≤ g.R mu * g.loc mu := Nat.mul_le_mul_right _ (hr mu)
    have h2 := hx mu
    rw [Nat.add_mul, Nat.one_mul] at h1
    omega
  have e : ((ofQuda y mu : Int) + (ofQuda ρ mu : Int) * (g.loc mu : Int)) =
      ((ofQuda ρ mu * g.loc mu + ofQuda y mu : Nat) : Int) := by push_cast; ring
  rw [e, ← Int.natCast_mod, Nat.mod_eq_of_lt b]
  rfl

end

/-- C79: gauge configuration.  On the rank that QUDA calls ρ, the array of the direction d holds at the place of the site y the
link that nissa has, in the corresponding direction, at the corresponding site of the whole lattice: sizes, directions (x, y, z, t
instead of t, x, y, z), order of the sites, parities and ranks of the two libraries agree.  It is the same for a configuration split in
even and odd sites. -/
theorem C79_conf {V : Type} (g : Geo) (ok : g.Ok) (eo : EoOk g) (ρ y : Coords) (hρ : ∀ d, ρ d < toQuda g.R d)
    (hy : ∀ d, y d < toQuda g.loc d) (d : Dir) (U : Coords → Dir → V) :
    rankOfQudaCoords g ρ = rankHostingSite g (siteOf g ρ y) ∧
    (∀ inp, Holds g (ofQuda ρ) inp U →
      remapConf g (ofQuda ρ) inp d (qudaSite (toQuda g.loc) y) = some (U (siteOf g ρ y) (dirOf d))) ∧
    (∀ inp, HoldsEo g (ofQuda ρ) inp U →
      remapConfEo g (ofQuda ρ) inp d (qudaSite (toQuda g.loc) y) = some (U (siteOf g ρ y) (dirOf d))) := by
  obtain ⟨i, q, h1, h2, h3, h4, h5⟩ := glb_of_site ok eo ρ y hρ hy
  refine ⟨?_, ?_, ?_⟩
  · unfold rankOfQudaCoords rankHostingSite
    congr 1
    funext mu
    have hx : ofQuda y mu < g.loc mu := by
      have := hy ((![3, 0, 1, 2] : Dir → Dir) mu)
      fin_cases mu <;> exact this
    unfold rankCoordsOfSite siteOf
    rw [Nat.add_comm, Nat.add_mul_div_right _ _ (loc_pos ok mu), Nat.div_eq_of_lt hx, Nat.zero_add]
    rfl
  · intro inp hh
    rw [← h3, remapConf_spec ok eo _ inp d h1 h2, hh i h1 _ h5]
  · intro inp hh
    obtain ⟨p, e, b1, b2, b3, b4, b5⟩ := eo_site ok eo (ofQuda ρ) h1
    rw [← h3, remapConfEo_spec ok eo _ inp d h1 h2 b3 b4, hh i h1 _ p e h5 b3 b4]

/-- C79: spinors and colors.  What is given to QUDA is, site by site, the field of nissa; what comes back is, site by site, the
field of QUDA. -/
theorem C79_vectors {V : Type} (g : Geo) (ok : g.Ok) (eo : EoOk g) (ρ y : Coords) (hρ : ∀ d, ρ d < toQuda g.R d)
    (hy : ∀ d, y d < toQuda g.loc d) (F : Coords → V) :
    (∀ inp, Holds g (ofQuda ρ) inp F →
      remapSpin g (ofQuda ρ) inp (qudaSite (toQuda g.loc) y) = some (F (siteOf g ρ y))) ∧
    (∀ inp, HoldsEo g (ofQuda ρ) inp F →
      remapColor g (ofQuda ρ) inp (qudaSite (toQuda g.loc) y) = some (F (siteOf g ρ y))) ∧
    ∃ i < g.locVol, ∃ p e, glbCoordOfLoclx g (ofQuda ρ) i = some (siteOf g ρ y) ∧ loclxParity g (ofQuda ρ) i = some p ∧
      loceoOfLoclx g (ofQuda ρ) i = some e ∧
      (∀ out : Nat → V, remapSpinBack g (ofQuda ρ) out i = some (out (qudaSite (toQuda g.loc) y))) ∧
      (∀ out : Nat → V, remapColorBack g (ofQuda ρ) out p e = some (out (qudaSite (toQuda g.loc) y))) := by
  obtain ⟨i, q, h1, h2, h3, h4, h5⟩ := glb_of_site ok eo ρ y hρ hy
  obtain ⟨p, e, b1, b2, b3, b4, b5⟩ := eo_site ok eo (ofQuda ρ) h1
  rw [← h3]
  refine ⟨?_, ?_, i, h1, p, e, h5, b3, b4, ?_, ?_⟩
  · intro inp hh
    rw [remapSpin_spec ok eo _ inp h1 h2, hh i h1 _ h5]
  · intro inp hh
    rw [remapColor_spec ok eo _ inp h1 h2 b3 b4, hh i h1 _ p e h5 b3 b4]
  · intro out; exact remapSpinBack_spec ok eo _ out h1 h4 h2
  · intro out; exact remapColorBack_spec ok eo _ out h1 h4 h2 b3 b4

/-- C79: a field given to QUDA and taken back is the same. -/
theorem C79_round_trip {V : Type} (g : Geo) (ok : g.Ok) (eo : EoOk g) (r : Coords) (inp : Nat → V) (out : Nat → V)
    (hout : ∀ q < g.locVol, remapSpin g r inp q = some (out q)) :
    ∀ i < g.locVol, remapSpinBack g r out i = some (inp i) := by
  intro i hi
  obtain ⟨q, h1, h2⟩ := quda_def ok eo r hi
  have := hout q h2
  rw [remapSpin_spec ok eo r inp hi h1] at this
  rw [remapSpinBack_spec ok eo r out hi h2 h1, ← Option.some.inj this]

/-- A case which meets the hypotheses: a lattice 8 x 4 x 4 x 2 on 2 x 1 x 2 x 1 ranks.  -/
def exG : Geo := { L := ![8, 4, 4, 2], R := ![2, 1, 2, 1] }

example : exG.Ok ∧ (∀ mu, exG.loc mu % 2 = 0) ∧ exG.locVol = 64 := by decide +kernel

example : toQuda exG.loc = ![4, 2, 2, 4] ∧ toQuda exG.R = ![1, 2, 1, 2] ∧ qudaSite (toQuda exG.loc) ![3, 1, 0, 2] = 19 ∧
    siteOf exG ![0, 1, 0, 1] ![3, 1, 0, 2] = ![6, 3, 3, 0] := by
  refine ⟨?_, ?_, by decide +kernel, ?_⟩ <;> funext mu <;> revert mu <;> decide +kernel

end Nissa.Quda
