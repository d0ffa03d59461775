import Verif.Stencil.Staples
import Verif.Dirac.PropsClover

/-! # C49: the overlapped computation of the staples -/

set_option linter.all false

namespace Nissa.Stap
open Nissa.Lx Nissa.Sten Nissa.Gauge Nissa.Paths Nissa.Su3f
open Matrix

section Writes
variable {K V : Type} [DecidableEq K]

theorem wr_miss (W : List (K × V)) (m : K → V) (k : K) (h : ∀ w ∈ W, w.1 ≠ k) : wr W m k = m k := by
  unfold wr
  induction W generalizing m with
  | nil => rfl
  | cons w W ih =>
    rw [List.foldl_cons, ih _ (fun w' hw' => h w' (List.mem_cons_of_mem _ hw')), Function.update_of_ne (h w (List.mem_cons_self ..)).symm]

theorem wr_hit (W : List (K × V)) (m : K → V) (k : K) (v : V) (h1 : ∃ w ∈ W, w.1 = k) (h2 : ∀ w ∈ W, w.1 = k → w.2 = v) : wr W m k = v := by
  induction W generalizing m with
  | nil => simp at h1
  | cons w W ih =>
    show wr W (Function.update m w.1 w.2) k = v
    by_cases hex : ∃ w ∈ W, w.1 = k
    · exact ih _ hex (fun w' hw' => h2 w' (List.mem_cons_of_mem _ hw'))
    · rw [wr_miss _ _ _ (fun w' hw' e => hex ⟨w', hw', e⟩)]
      obtain ⟨w', hw', e⟩ := h1
      rcases List.mem_cons.1 hw' with rfl | h
      · rw [← e, Function.update_self]; exact h2 _ (List.mem_cons_self ..) e
      · exact absurd ⟨w', h, e⟩ hex

/-- writing the right value or nothing -/
theorem wr_keep (W : List (K × V)) (m : K → V) (k : K) (v : V) (h1 : m k = v) (h2 : ∀ w ∈ W, w.1 = k → w.2 = v) : wr W m k = v := by
  by_cases hex : ∃ w ∈ W, w.1 = k
  · exact wr_hit W m k v hex h2
  · rw [wr_miss _ _ _ (fun w' hw' e => hex ⟨w', hw', e⟩)]; exact h1
end Writes

theorem pd_ne (mu : Dir) (inu : Fin 3) : pd mu inu ≠ mu := by revert mu inu; decide
theorem pd_inuOf {nu mu : Dir} (h : nu ≠ mu) : pd mu (inuOf nu mu) = nu := by revert nu mu; decide
theorem inuOf_pd (mu : Dir) (inu : Fin 3) : inuOf (pd mu inu) mu = inu := by revert mu inu; decide
theorem mem_perp {nu mu : Dir} : mu ∈ Geo.perpDirs nu ↔ mu ≠ nu := by revert nu mu; decide
theorem bwc_inj {a b : Fin 3} (h : bwc a = bwc b) : a = b := by revert a b; decide
theorem fwc_inj {a b : Fin 3} (h : fwc a = fwc b) : a = b := by revert a b; decide
theorem fwc_ne (a b : Fin 3) : fwc a ≠ bwc b := by revert a b; decide
theorem mem_dirs' (mu : Dir) : mu ∈ dirs := by revert mu; decide
theorem mem_three (i : Fin 3) : i ∈ ([0, 1, 2] : List (Fin 3)) := by revert i; decide

/-- Each loop visits its sites in some order -/
def SchedOk (sched : Nat → Dir → Fin 3 → List Nat → List Nat) : Prop := ∀ n mu inu l, (sched n mu inu l).Perm l

theorem mem_loopW {sched : Dir → Fin 3 → List Nat → List Nat} (hs : ∀ mu inu l, (sched mu inu l).Perm l) {sites : List Nat}
    {key : Dir → Fin 3 → Nat → Key} {val : Dir → Fin 3 → Nat → M3} {w : Key × M3} :
    w ∈ loopW sched sites key val ↔ ∃ mu inu A, A ∈ sites ∧ w = (key mu inu A, val mu inu A) := by
  unfold loopW
  simp only [List.mem_flatMap, List.mem_map]
  constructor
  · rintro ⟨mu, _, inu, _, A, hA, rfl⟩
    exact ⟨mu, inu, A, (hs mu inu sites).mem_iff.1 hA, rfl⟩
  · rintro ⟨mu, inu, A, hA, rfl⟩
    exact ⟨mu, mem_dirs' mu, inu, mem_three inu, A, (hs mu inu sites).mem_iff.2 hA, rfl⟩

theorem mem_bordTrip {g : Geo} {half : Nat} {t : Dir × Dir × Nat} :
    t ∈ bordTrip g half ↔ 1 < g.R t.1 ∧ t.2.1 ≠ t.1 ∧ ∃ k, k < g.bordDirVol t.1 ∧ t.2.2 = half * g.bordVolh + g.bordOffset t.1 + k := by
  unfold bordTrip
  rw [List.mem_flatMap]
  constructor
  · rintro ⟨nu, _, h⟩
    split at h
    · rename_i hp
      obtain ⟨mu, hmu, h⟩ := List.mem_flatMap.1 h
      obtain ⟨k, hk, rfl⟩ := List.mem_map.1 h
      exact ⟨(isPar_iff nu).1 hp, mem_perp.1 hmu, k, List.mem_range.1 hk, rfl⟩
    · simp at h
  · rintro ⟨hp, hne, k, hk, he⟩
    refine ⟨t.1, mem_dirs' t.1, ?_⟩
    rw [if_pos ((isPar_iff t.1).2 hp)]
    refine List.mem_flatMap.2 ⟨t.2.1, mem_perp.2 hne, List.mem_map.2 ⟨k, List.mem_range.2 hk, ?_⟩⟩
    rw [← he]

section
variable {g : Geo} (ok : g.Ok)
include ok

theorem nonFw_iff {x : ICoords} (hx : ∀ nu, Inside g x nu) : isNonFwSurf g (idx g x) = true ↔ ∀ mu, 1 < g.R mu → x mu ≠ (g.loc mu : Int) - 1 := by
  unfold isNonFwSurf
  rw [locCoord_table ok hx, List.all_eq_true]
  simp only [Option.getD_some, Bool.not_eq_true', Bool.and_eq_false_iff, beq_eq_false_iff_ne]
  constructor
  · intro h mu hp
    rcases h mu (mem_dirs' mu) with h | h
    · rw [(isPar_iff mu).2 hp] at h; exact absurd h (by decide)
    · exact h
  · intro h mu _
    by_cases hp : 1 < g.R mu
    · exact .inr (h mu hp)
    · left
      cases hh : g.isPar mu
      · rfl
      · exact absurd ((isPar_iff mu).1 hh) hp

/-- the forward neighbour of a local site: a local site or one of the forward halo along that direction -/
theorem up_cases (r : Coords) (ji : Nat) {x : ICoords} (hx : ∀ nu, Inside g x nu) (mu : Dir) :
    ∃ y, upT g r ji (idx g x) mu = idx g y ∧ torus g r y = tshift g (torus g r x) mu 1 ∧
      ((∀ nu, Inside g y nu) ∨ (OneOut g y mu ∧ y mu = g.loc mu ∧ y = shift x mu 1 ∧ x mu = (g.loc mu : Int) - 1)) := by
  obtain ⟨y, hy, hmod, hag, hpar, hnp⟩ := step_inside ok (ext_inside hx) (hx mu) (.inl rfl : (1 : Int) = 1 ∨ (1 : Int) = -1)
  have hn : nOut g y ≤ 1 := by have := nOut_le_of_agree (hx mu) hag; rw [nOut_inside hx] at this; omega
  have e1 : loclxNeigh g r 1 (idx g x) mu = some ((idx g y : Nat) : Int) := by
    rw [neigh_eq ok r (ext_inside hx) (by rw [nOut_inside hx]; omega), ← fullLx_congr ok hmod, idx_spec ok hy (by omega)]
  refine ⟨y, by unfold upT; rw [e1]; rfl, by rw [torus_congr ok r hmod, torus_shift ok], ?_⟩
  by_cases hin : Inside g y mu
  · left; intro nu
    by_cases h : nu = mu
    · subst h; exact hin
    · have := hx nu; unfold Inside at this ⊢; rw [hag nu h]; exact this
  · right
    have hp : 1 < g.R mu := by by_contra hp; exact hin (hnp hp)
    have hv := hpar hp
    have h1 := hx mu
    unfold Inside at h1 hin
    have hl : x mu = (g.loc mu : Int) - 1 := by omega
    refine ⟨⟨⟨hp, .inr (by omega)⟩, fun nu h => ?_⟩, by omega, ?_, hl⟩
    · have := hx nu; unfold Inside at this ⊢; rw [hag nu h]; exact this
    · funext nu
      by_cases h : nu = mu
      · subst h; unfold shift; rw [Function.update_self]; exact hv
      · unfold shift; rw [Function.update_of_ne h]; exact hag nu h

omit ok in
theorem mem_fwSurf {i : Nat} : i ∈ fwSurf g ↔ i < g.locVol ∧ isNonFwSurf g i = false := by
  unfold fwSurf; rw [List.mem_filter, List.mem_range]; simp

omit ok in
theorem mem_nonFwSurf {i : Nat} : i ∈ nonFwSurf g ↔ i < g.locVol ∧ isNonFwSurf g i = true := by
  unfold nonFwSurf; rw [List.mem_filter, List.mem_range]

/-- what is received from the neighbour -/
theorem exchange_eq (o : Fin 2) (sb : Coords → Nat → Quad) (jq : Quad) {r : Coords} (hr : IsRank g r) {x : ICoords} {mu : Dir}
    (hx : OneOut g x mu) (ho : oriF g x mu = 1 - o) :
    exchange g o sb jq r (idx g x - g.locVol) = sb (rankNeigh g r (1 - o) mu) (idx g (Lx.flip g x mu) - g.locVol) := by
  obtain ⟨buf, hb, hs⟩ := haloRecvBuf_spec ok DcOk.one (fun p _ => p == o) (fun r i => some (sb r i)) hr
  have hx' := flip_oneOut ok hx
  have oo : ∀ o : Fin 2, 1 - (1 - o) = o := by decide
  unfold exchange
  rw [hb, Option.bind_some, idx_bord_off ok hx, hs mu _ _ hx.1.1 (by unfold haloLen; rw [Nat.div_one]; exact bordSub_lt ok hx),
    ho, oo, if_pos (by simp), Option.getD_some, idx_bord_off ok hx', oriF_flip ok hx, bordSub_flip, ho, oo]

theorem fw_range {x : ICoords} {mu : Dir} (hx : OneOut g x mu) (hv : x mu = g.loc mu) :
    idx g x = g.locVol + (1 * g.bordVolh + g.bordOffset mu + bordSub g x mu) ∧ bordSub g x mu < g.bordDirVol mu := by
  refine ⟨?_, bordSub_lt ok hx⟩
  have : oriOf g x mu = 1 := by unfold oriOf; rw [if_pos hv]
  rw [idx_bord ok hx, this]; omega

theorem bw_range {x : ICoords} {mu : Dir} (hx : OneOut g x mu) (hv : x mu = -1) :
    idx g x = g.locVol + (0 * g.bordVolh + g.bordOffset mu + bordSub g x mu) ∧ bordSub g x mu < g.bordDirVol mu := by
  refine ⟨?_, bordSub_lt ok hx⟩
  have h0 := loc_pos ok mu
  have : oriOf g x mu = 0 := by unfold oriOf; rw [if_neg (by omega)]
  rw [idx_bord ok hx, this]; omega

/-- the element of the border list is the site -/
theorem bord_decode {mu nu : Dir} {half h2 j k : Nat} (hh : half < 2) (hh2 : h2 < 2) (hj : j < g.bordDirVol mu) (hk : k < g.bordDirVol nu)
    (h : half * g.bordVolh + g.bordOffset mu + j = h2 * g.bordVolh + g.bordOffset nu + k) : mu = nu ∧ j = k := by
  have b1 := bordOffset_le (g := g) (m := mu)
  have b2 := bordOffset_le (g := g) (m := nu)
  have : half = h2 := by
    rcases Nat.le_one_iff_eq_zero_or_eq_one.1 (Nat.le_of_lt_succ hh) with a | a <;>
      rcases Nat.le_one_iff_eq_zero_or_eq_one.1 (Nat.le_of_lt_succ hh2) with b | b <;> subst a <;> subst b <;> omega
  subst this
  exact bordOffset_decode hj hk (by omega)

/-- the generic statement: kernels which evaluate the right staples on each site give the right result everywhere -/
theorem overlapped_spec (ji : Nat) {sched : Nat → Dir → Fin 3 → List Nat → List Nat} (hsc : SchedOk sched)
    {fw0 fw1 bw1 : Coords → Dir → Fin 3 → Nat → M3} (jb : Coords → Nat × Dir → M3) (jq : Quad) (out0 : Coords → Stap)
    (FW BW : Coords → Dir → Fin 3 → M3)
    (h0 : ∀ r, IsRank g r → ∀ x, (∀ nu, Inside g x nu) → (∀ mu, 1 < g.R mu → x mu ≠ (g.loc mu : Int) - 1) → ∀ mu inu,
      fw0 r mu inu (idx g x) = FW (torus g r x) mu inu)
    (h1 : ∀ r, IsRank g r → ∀ x, (∀ nu, Inside g x nu) → ∀ mu inu, fw1 r mu inu (idx g x) = FW (torus g r x) mu inu)
    (h2 : ∀ r, IsRank g r → ∀ x, (∀ nu, Inside g x nu) → ∀ mu inu,
      bw1 r mu inu (idx g x) = BW (tshift g (torus g r x) (pd mu inu) 1) mu inu)
    {r : Coords} (hr : IsRank g r) {x : ICoords} (hx : ∀ nu, Inside g x nu) (mu : Dir) (inu : Fin 3) :
    overlapped g ji sched fw0 fw1 bw1 jb jq out0 r (idx g x, mu, fwc inu) = FW (torus g r x) mu inu ∧
    overlapped g ji sched fw0 fw1 bw1 jb jq out0 r (idx g x, mu, bwc inu) = BW (torus g r x) mu inu := by
  have hlt := idx_loc_lt ok hx
  have s2 := hsc 2
  have s4 := hsc 4
  have s5 := hsc 5
  have s6 := hsc 6
  -- a backward staple written by any of the two scans is right, whatever the rank
  have bwval : ∀ r, IsRank g r → ∀ (sites : List Nat) (n : Nat), (∀ D ∈ sites, D < g.locVol) → ∀ y : ICoords, Ext g y → nOut g y ≤ 1 →
      ∀ mu inu, ∀ w ∈ bwLoop g r ji (sched n) sites (bw1 r), w.1 = (idx g y, mu, bwc inu) → w.2 = BW (torus g r y) mu inu := by
    intro r hr sites n hsites y hy hny mu inu w hw hk
    obtain ⟨mu', inu', D, hD, rfl⟩ := (mem_loopW (hsc n)).1 hw
    simp only [Prod.mk.injEq] at hk
    obtain ⟨k1, rfl, k3⟩ := hk
    have := bwc_inj k3
    subst this
    obtain ⟨z, hz, rfl⟩ := idx_surj_loc ok (hsites D hD)
    obtain ⟨u, hu1, hu2, hu3⟩ := up_cases ok r ji hz (pd mu' inu')
    rw [hu1] at k1
    have hu4 : Ext g u ∧ nOut g u ≤ 1 := by
      rcases hu3 with h | ⟨h, _⟩
      · exact ⟨ext_inside h, by rw [nOut_inside h]; omega⟩
      · exact ⟨ext_oneOut h, by rw [nOut_oneOut h]⟩
    have := idx_inj ok hu4.1 (by omega) hy (by omega) k1
    subst this
    show bw1 r mu' inu' (idx g z) = _
    rw [h2 r hr z hz, hu2]
  have bwfw : ∀ r (sites : List Nat) (n : Nat) k i mu, ∀ w ∈ bwLoop g r ji (sched n) sites (bw1 r), w.1 ≠ (k, mu, fwc i) := by
    intro r sites n k i mu w hw hk
    obtain ⟨mu', inu', D, hD, rfl⟩ := (mem_loopW (hsc n)).1 hw
    simp only [Prod.mk.injEq] at hk
    exact fwc_ne _ _ hk.2.2.symm
  have fwbw : ∀ (sites : List Nat) (n : Nat) fw k i mu, ∀ w ∈ fwLoop (sched n) sites fw, w.1 ≠ (k, mu, bwc i) := by
    intro sites n fw k i mu w hw hk
    obtain ⟨mu', inu', D, hD, rfl⟩ := (mem_loopW (hsc n)).1 hw
    simp only [Prod.mk.injEq] at hk
    exact fwc_ne _ _ hk.2.2
  have fsub : ∀ D ∈ fwSurf g, D < g.locVol := fun D h => (mem_fwSurf.1 h).1
  have nsub : ∀ D ∈ nonFwSurf g, D < g.locVol := fun D h => (mem_nonFwSurf.1 h).1
  constructor
  · unfold overlapped bwFinish
    simp only
    rw [wr_miss]
    · by_cases hf : isNonFwSurf g (idx g x) = true
      · rw [wr_miss, wr_miss _ _ _ (bwfw r _ 5 _ _ _), wr_miss _ _ _ (bwfw r _ 4 _ _ _)]
        · refine wr_hit _ _ _ _ ⟨_, (mem_loopW s2).2 ⟨mu, inu, idx g x, mem_nonFwSurf.2 ⟨hlt, hf⟩, rfl⟩, rfl⟩ ?_
          intro w hw hk
          obtain ⟨mu', inu', D, hD, rfl⟩ := (mem_loopW s2).1 hw
          simp only [Prod.mk.injEq] at hk
          obtain ⟨rfl, rfl, k3⟩ := hk
          have := fwc_inj k3
          subst this
          exact h0 r hr x hx ((nonFw_iff ok hx).1 hf) _ _
        · intro w hw hk
          obtain ⟨mu', inu', D, hD, rfl⟩ := (mem_loopW s6).1 hw
          simp only [Prod.mk.injEq] at hk
          obtain ⟨rfl, rfl, k3⟩ := hk
          have := (mem_fwSurf.1 hD).2
          rw [hf] at this; exact absurd this (by decide)
      · have hf' : isNonFwSurf g (idx g x) = false := by simpa using hf
        refine wr_hit _ _ _ _ ⟨_, (mem_loopW s6).2 ⟨mu, inu, idx g x, mem_fwSurf.2 ⟨hlt, hf'⟩, rfl⟩, rfl⟩ ?_
        intro w hw hk
        obtain ⟨mu', inu', D, hD, rfl⟩ := (mem_loopW s6).1 hw
        simp only [Prod.mk.injEq] at hk
        obtain ⟨rfl, rfl, k3⟩ := hk
        have := fwc_inj k3
        subst this
        exact h1 r hr x hx _ _
    · intro w hw hk
      obtain ⟨t, ht, rfl⟩ := List.mem_map.1 hw
      simp only [Prod.mk.injEq] at hk
      exact fwc_ne _ _ hk.2.2.symm
  · -- what the backward neighbour sends
    have hrecv : ∀ nu, nu ≠ mu → ∀ z, OneOut g z nu → z nu = -1 → (∀ k, Inside g (shift z nu 1) k) →
        exchange g 1 (fun r i mu => bwSendBuf g (wr (bwLoop g r ji (sched 4) (fwSurf g) (bw1 r))
          (wr (fwLoop (sched 2) (nonFwSurf g) (fw0 r)) (out0 r))) (jb r) (i, mu)) jq r (idx g z - g.locVol) mu =
        BW (torus g r (shift z nu 1)) mu (inuOf nu mu) := by
      intro nu hne z hz hzv hzi
      have hl := loc_pos ok nu
      have hori : oriF g z nu = 1 - 1 := by unfold oriF; rw [if_neg (by omega)]; rfl
      have hr' := rankNeigh_isRank ok hr (1 - 1) nu
      have hz' := flip_oneOut ok hz
      have hzv' : Lx.flip g z nu nu = g.loc nu := by unfold Lx.flip; rw [Function.update_self, if_pos hzv]
      obtain ⟨e1, e2⟩ := fw_range ok hz' hzv'
      rw [exchange_eq ok 1 _ jq hr hz hori]
      have hpi := pull_inside ok hz'
      have hpull : pull g (Lx.flip g z nu) nu nu = (g.loc nu : Int) - 1 := by
        unfold pull; rw [Function.update_self, if_neg (by rw [hzv']; omega)]
      have hsh : shift (pull g (Lx.flip g z nu) nu) nu 1 = Lx.flip g z nu := by
        have := shift_pull ok hz'.1
        rwa [if_neg (by rw [hzv']; omega)] at this
      have hsite : torus g (rankNeigh g r (1 - 1) nu) (Lx.flip g z nu) = torus g r (shift z nu 1) := by
        rw [← hsh, torus_shift ok, torus_shift ok, ← hori, torus_flip ok hr hz]
      unfold bwSendBuf
      rw [e1, Nat.add_sub_cancel_left]
      refine wr_hit _ _ _ _ ⟨_, List.mem_map.2 ⟨(nu, mu, _), mem_bordTrip.2 ⟨hz.1.1, hne.symm, _, e2, rfl⟩, rfl⟩, rfl⟩ ?_
      intro w hw hk
      obtain ⟨⟨nu', mu', i'⟩, ht, rfl⟩ := List.mem_map.1 hw
      obtain ⟨t1, t2, k, t3, t4⟩ := mem_bordTrip.1 ht
      simp only [Prod.mk.injEq] at hk t1 t2 t3 t4
      obtain ⟨rfl, rfl⟩ := hk
      obtain ⟨q1, q2⟩ := bord_decode ok (by omega) (by omega) e2 t3 t4
      subst q1
      show wr _ _ (g.locVol + _, mu', bwc (inuOf nu mu')) = _
      rw [← e1, ← hsite]
      refine wr_hit _ _ _ _ ?_ (bwval _ hr' _ 4 fsub _ (ext_oneOut hz') (by rw [nOut_oneOut hz']) _ _)
      refine ⟨_, (mem_loopW s4).2 ⟨mu', inuOf nu mu', idx g (pull g (Lx.flip g z nu) nu), mem_fwSurf.2 ⟨idx_loc_lt ok hpi, ?_⟩, rfl⟩, ?_⟩
      · cases hc : isNonFwSurf g (idx g (pull g (Lx.flip g z nu) nu))
        · rfl
        · exact absurd hpull ((nonFw_iff ok hpi).1 hc nu hz.1.1)
      · simp only
        rw [pd_inuOf hne]
        obtain ⟨u, hu1, hu2, hu3⟩ := up_cases ok (rankNeigh g r (1 - 1) nu) ji hpi nu
        rw [hu1]
        rcases hu3 with h | ⟨_, _, h, _⟩
        · exfalso
          have q := neigh_eq ok (rankNeigh g r (1 - 1) nu) (ext_inside hpi) (by rw [nOut_inside hpi]; omega) 1 nu
          rw [hsh, idx_spec ok (ext_oneOut hz') (by rw [nOut_oneOut hz']; omega)] at q
          unfold upT at hu1
          rw [q] at hu1
          have : idx g (Lx.flip g z nu) = idx g u := hu1
          have a := idx_loc_lt ok h
          have b := (idx_bord_range ok hz').1
          omega
        · rw [h, hsh]
    unfold overlapped bwFinish
    simp only
    -- whatever is copied on this element is right
    have hcopy : ∀ w ∈ (bordTrip g 0).map (fun t : Dir × Dir × Nat => (((surflxOfBordlx g r t.2.2).getD ji, t.2.1, bwc (inuOf t.1 t.2.1)),
        exchange g 1 (fun r i mu => bwSendBuf g (wr (bwLoop g r ji (sched 4) (fwSurf g) (bw1 r))
          (wr (fwLoop (sched 2) (nonFwSurf g) (fw0 r)) (out0 r))) (jb r) (i, mu)) jq r t.2.2 t.2.1)),
        w.1 = (idx g x, mu, bwc inu) → w.2 = BW (torus g r x) mu inu := by
      intro w hw hk
      obtain ⟨⟨nu, mu', i⟩, ht, rfl⟩ := List.mem_map.1 hw
      obtain ⟨t1, t2, k, t3, t4⟩ := mem_bordTrip.1 ht
      simp only [Prod.mk.injEq] at hk t1 t2 t3 t4
      obtain ⟨k1, rfl, k3⟩ := hk
      have k3 := bwc_inj k3
      have hb := bordOffset_le (g := g) (m := nu)
      obtain ⟨z, nu2, hz, hz2⟩ := idx_surj_bord ok (i := i) (by have : g.bordVol = 2 * g.bordVolh := rfl; omega)
      have hv : nu2 = nu ∧ z nu2 = -1 := by
        have hl := loc_pos ok nu2
        rcases hz.1.2 with h | h
        · refine ⟨?_, h⟩
          obtain ⟨a, b⟩ := bw_range ok hz h
          exact (bord_decode ok (half := 0) (h2 := 0) (by omega) (by omega) b t3 (by omega)).1
        · exfalso
          obtain ⟨a, b⟩ := fw_range ok hz h
          have := bordOffset_le (g := g) (m := nu2)
          omega
      obtain ⟨rfl, hv⟩ := hv
      have hi : i = idx g z - g.locVol := by omega
      have hsurf := surf_of_bord ok r hz
      rw [← hi] at hsurf
      rw [hsurf, Option.getD_some] at k1
      have := idx_inj ok (ext_inside (pull_inside ok hz)) (by rw [nOut_inside (pull_inside ok hz)]; omega) (ext_inside hx)
        (by rw [nOut_inside hx]; omega) k1
      have hshift : shift z nu2 1 = x := by
        rw [← this]
        funext k
        unfold shift pull
        by_cases hk : k = nu2
        · subst hk; rw [Function.update_self, Function.update_self, if_pos hv, hv]; rfl
        · rw [Function.update_of_ne hk, Function.update_of_ne hk]
      show exchange g 1 _ jq r i mu' = _
      rw [hi, hrecv nu2 t2.symm z hz hv (by rw [hshift]; exact hx), hshift, k3]
    have hne : pd mu inu ≠ mu := pd_ne mu inu
    by_cases hb : 1 < g.R (pd mu inu) ∧ x (pd mu inu) = 0
    · -- received
      have hz : OneOut g (shift x (pd mu inu) (-1)) (pd mu inu) := step_out ok hx hb.1 (.inl ⟨hb.2, rfl⟩)
      have hzv : shift x (pd mu inu) (-1) (pd mu inu) = -1 := by unfold shift; rw [Function.update_self, hb.2]; rfl
      obtain ⟨a, b⟩ := bw_range ok hz hzv
      refine wr_hit _ _ _ _ ⟨_, List.mem_map.2 ⟨(pd mu inu, mu, 0 * g.bordVolh + g.bordOffset (pd mu inu) + bordSub g (shift x (pd mu inu) (-1)) (pd mu inu)),
        mem_bordTrip.2 ⟨hb.1, hne.symm, _, b, rfl⟩, rfl⟩, ?_⟩ hcopy
      have hsurf := surf_of_bord ok r hz
      rw [a, Nat.add_sub_cancel_left] at hsurf
      have hpx : pull g (shift x (pd mu inu) (-1)) (pd mu inu) = x := by
        funext k
        unfold pull
        by_cases hk : k = pd mu inu
        · rw [hk, Function.update_self, if_pos hzv, hb.2]
        · rw [Function.update_of_ne hk]; unfold shift; rw [Function.update_of_ne hk]
      simp only
      rw [hsurf, Option.getD_some, hpx, inuOf_pd]
    · -- local
      refine wr_keep _ _ _ _ ?_ hcopy
      rw [wr_miss _ _ _ (fwbw _ 6 _ _ _ _)]
      -- the local site D below
      obtain ⟨y, hy, hmod, hag, hpar, hnp⟩ := step_inside ok (ext_inside hx) (hx (pd mu inu)) (.inr rfl : (-1 : Int) = 1 ∨ (-1 : Int) = -1)
      have hyi : ∀ k, Inside g y k := by
        intro k
        by_cases hk : k = pd mu inu
        · subst hk
          by_cases hp : 1 < g.R (pd mu inu)
          · have h3 := hpar hp
            have h4 := hx (pd mu inu)
            have h5 : x (pd mu inu) ≠ 0 := fun h => hb ⟨hp, h⟩
            unfold Inside at h4 ⊢; omega
          · exact hnp hp
        · have := hx k; unfold Inside at this ⊢; rw [hag k hk]; exact this
      have hup : upT g r ji (idx g y) (pd mu inu) = idx g x := by
        unfold upT
        rw [neigh_eq ok r (ext_inside hyi) (by rw [nOut_inside hyi]; omega)]
        have : g.fullLx (shift y (pd mu inu) 1) = g.fullLx x := by
          refine fullLx_congr ok (fun k => ?_)
          have hm := hmod k
          unfold shift at hm ⊢
          by_cases hk : k = pd mu inu
          · subst hk
            rw [Function.update_self] at hm ⊢
            rw [Int.add_emod, hm, ← Int.add_emod]
            congr 1; omega
          · rw [Function.update_of_ne hk] at hm ⊢; exact hm
        rw [this, idx_spec ok (ext_inside hx) (by rw [nOut_inside hx]; omega)]; rfl
      by_cases hf : isNonFwSurf g (idx g y) = true
      · refine wr_hit _ _ _ _ ⟨_, (mem_loopW s5).2 ⟨mu, inu, idx g y, mem_nonFwSurf.2 ⟨idx_loc_lt ok hyi, hf⟩, rfl⟩, ?_⟩
          (bwval r hr _ 5 nsub _ (ext_inside hx) (by rw [nOut_inside hx]; omega) _ _)
        simp only
        rw [hup]
      · have hf' : isNonFwSurf g (idx g y) = false := by simpa using hf
        refine wr_keep _ _ _ _ ?_ (bwval r hr _ 5 nsub _ (ext_inside hx) (by rw [nOut_inside hx]; omega) _ _)
        refine wr_hit _ _ _ _ ⟨_, (mem_loopW s4).2 ⟨mu, inu, idx g y, mem_fwSurf.2 ⟨idx_loc_lt ok hyi, hf'⟩, rfl⟩, ?_⟩
          (bwval r hr _ 4 fsub _ (ext_inside hx) (by rw [nOut_inside hx]; omega) _ _)
        simp only
        rw [hup]

end
end Nissa.Stap
