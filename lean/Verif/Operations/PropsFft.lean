/- C36: the Fourier transform of a field. -/
import Verif.Operations.Fft
import Verif.Comm.LayoutsCases
set_option linter.all false

namespace Nissa.Fft
open Nissa.Lx Nissa.A2A Nissa.Layouts

/-! ### Specification -/

/-- discrete Fourier transform of a global field in the direction `mu` -/
noncomputable def dft {ncpp : Nat} (L : Coords) (sign : Int) (mu : Dir) (phi : Coords → Site ncpp) : Coords → Site ncpp :=
  fun p icpp => ∑ x ∈ Finset.range (L mu), root sign (L mu) ^ (p mu * x) * phi (Function.update p mu x) icpp

/-- discrete Fourier transform in the selected directions -/
noncomputable def dftSel {ncpp : Nat} (L : Coords) (sign : Int) (sel : Dir → Bool) (phi : Coords → Site ncpp) : Coords → Site ncpp :=
  dirs.foldl (fun phi mu => if sel mu then dft L sign mu phi else phi) phi

/-- full Fourier transform, as a sum on all the sites -/
noncomputable def dftAll {ncpp : Nat} (L : Coords) (sign : Int) (phi : Coords → Site ncpp) : Coords → Site ncpp :=
  fun p icpp => ∑ x3 ∈ Finset.range (L 3), ∑ x2 ∈ Finset.range (L 2), ∑ x1 ∈ Finset.range (L 1), ∑ x0 ∈ Finset.range (L 0),
    root sign (L 0) ^ (p 0 * x0) * root sign (L 1) ^ (p 1 * x1) * root sign (L 2) ^ (p 2 * x2) * root sign (L 3) ^ (p 3 * x3) * phi ![x0, x1, x2, x3] icpp

/-- conditions under which the remappings needed to transform a direction are right: see C25 -/
def DirOk (g : Geo) (X : Nat → Nat → Coords) (mu : Dir) : Prop := PerpDivides g mu ∧ CopyOk g (locDirMaker g X mu) ∧ CopyOk g (locDirUnmaker g mu)

/-! ### One direction -/

theorem represents_congr {ncpp : Nat} {g : Geo} {X : Nat → Nat → Coords} {phi : Coords → Site ncpp} {f : Nat → Nat → Site ncpp} (h : Represents g X phi f) (r i : Nat) (hr : r < g.nranks) (hi : i < g.locVol) :
    f r i = phi (X r i) := h r i hr hi

theorem dir_spec {ncpp : Nat} (g : Geo) (ok : g.Ok) (X : Nat → Nat → Coords) (hX : CoordTable g X) (sign : Int) (mu : Dir) (hd : DirOk g X mu)
    (phi : Coords → Site ncpp) (f : Nat → Nat → Site ncpp) (hf : Represents g X phi f) :
    (∃ f', DirRun g X sign mu f f') ∧ ∀ f', DirRun g X sign mu f f' → Represents g X (dft g.L sign mu phi) f' := by
  obtain ⟨hdiv, hs, hs'⟩ := hd
  have hb := locd_bij g ok X hX mu hdiv
  obtain ⟨m1, m2⟩ := maxPerp_eq g ok mu hdiv
  have hL := L_pos ok mu
  have hord : ∀ r, r < g.nranks → (locdSize g mu r).toNat = g.locVol := fun r hr => by rw [(locdSize_eq g ok mu hdiv r hr).1]; rfl
  constructor
  · obtain ⟨⟨buf, h1⟩, -⟩ := block_run g ok _ _ hb hs f (fun _ => 0) (fun _ => 0) (fun _ => List.range g.locVol) (fun r _ => List.Perm.refl _) (fun _ _ => 0)
    obtain ⟨⟨f', h2⟩, -⟩ := block_run g ok _ _ hb.symm hs' (lines g mu sign buf) (fun _ => 0) (fun _ => 0) (fun _ => List.range g.locVol) (fun r _ => List.Perm.refl _) f
    exact ⟨f', fun _ => 0, fun _ => 0, fun _ => List.range g.locVol, fun _ => List.range g.locVol, fun _ _ => 0, buf, fun r _ => List.Perm.refl _,
      fun r hr => by rw [hord r hr], h1, (unmaker_runs g ok mu hdiv _ _ _ _ _ _).2 h2⟩
  · rintro f' ⟨junk, junk', order, order', out, buf, ho, ho', h1, h2⟩ r i hr hi
    have ho2 : ∀ r, r < g.nranks → (order' r).Perm (List.range g.locVol) := fun r hr => by have := ho' r hr; rwa [hord r hr] at this
    obtain ⟨-, hbuf⟩ := block_run g ok _ _ hb hs f junk junk' order ho out
    obtain ⟨-, hback⟩ := block_run g ok _ _ hb.symm hs' (lines g mu sign buf) junk junk' order' ho2 f
    replace hbuf := (hbuf buf h1).1
    replace hback := (hback f' ((unmaker_runs g ok mu hdiv _ _ _ _ _ _).1 h2)).2 r i hr hi
    rw [hback]
    obtain ⟨hc, hci⟩ := coordTable_of g ok X hX r i hr hi
    generalize hcd : X r i = c at hc hci
    -- the line of the site
    obtain ⟨q1, q2⟩ := hb.to_lt r i hr hi
    have hmk : locDirMaker g X mu r i = (mix (perp mu) g.L c / maxPerp g mu, (mix (perp mu) g.L c - mix (perp mu) g.L c / maxPerp g mu * maxPerp g mu) * g.L mu + c mu) := by
      unfold locDirMaker; rw [hcd]
    generalize hq : mix (perp mu) g.L c / maxPerp g mu = q at hmk
    generalize hk : mix (perp mu) g.L c - q * maxPerp g mu = k at hmk
    rw [hmk] at q1 q2 ⊢
    simp only at q1 q2 ⊢
    obtain ⟨d1, d2⟩ := entry_rank (a := k) (hc mu)
    have hkm : k < maxPerp g mu := by
      rw [← m1] at q2
      by_contra hh
      have := Nat.mul_le_mul_right (g.L mu) (Nat.not_lt.1 hh)
      omega
    have hperp : ((k : Nat) : Int) < perpSize g mu q := by rw [(locdSize_eq g ok mu hdiv q q1).2]; omega
    funext icpp
    unfold lines dft
    rw [d2, if_pos hperp, d1]
    refine Finset.sum_congr rfl (fun x hx => ?_)
    rw [Finset.mem_range] at hx
    congr 1
    have hcu : ∀ nu, (Function.update c mu x) nu < g.L nu := fun nu => by
      by_cases hne : nu = mu
      · subst hne; rw [Function.update_self]; exact hx
      · rw [Function.update_of_ne hne]; exact hc nu
    obtain ⟨a1, a2, -⟩ := C02_rank_and_loclx g ok _ hcu
    have hb2 := hbuf _ _ a1 a2
    rw [hf _ _ a1 a2, coordTable_at g ok X hX _ hcu] at hb2
    have hnot : mu ∉ (perp mu).reverse := by rw [List.mem_reverse]; unfold perp; rw [List.mem_filter]; simp
    have hmix : mix (perp mu) g.L (Function.update c mu x) = mix (perp mu) g.L c := by
      rw [mix_eq_mixR, mix_eq_mixR]
      exact mixR_congr (fun d hd => Function.update_of_ne (fun hh : d = mu => hnot (by subst hh; exact hd)) _ _)
    have hm : locDirMaker g X mu (getLoclxAndRankOfCoords g (Function.update c mu x)).1 (getLoclxAndRankOfCoords g (Function.update c mu x)).2 = (q, k * g.L mu + x) := by
      unfold locDirMaker
      simp only
      rw [coordTable_at g ok X hX _ hcu, hmix, Function.update_self, hq, hk]
    rw [hm] at hb2
    rw [← hb2]

/-! ### All the directions -/

theorem dirs_spec {ncpp : Nat} (g : Geo) (ok : g.Ok) (X : Nat → Nat → Coords) (hX : CoordTable g X) (sign : Int) (sel : Dir → Bool) :
    ∀ (ds : List Dir), (∀ mu ∈ ds, sel mu = true → DirOk g X mu) → ∀ (phi : Coords → Site ncpp) (f : Nat → Nat → Site ncpp), Represents g X phi f →
    (∃ f', DirsRun g X sign sel ds f f') ∧ ∀ f', DirsRun g X sign sel ds f f' → Represents g X (ds.foldl (fun phi mu => if sel mu then dft g.L sign mu phi else phi) phi) f' := by
  intro ds
  induction ds with
  | nil =>
    intro _ phi f hf
    refine ⟨⟨f, .nil f⟩, ?_⟩
    rintro f' ⟨⟩
    exact hf
  | cons mu ds ih =>
    intro hd phi f hf
    by_cases hm : sel mu = true
    · obtain ⟨⟨f1, h1⟩, h2⟩ := dir_spec g ok X hX sign mu (hd mu (by simp) hm) phi f hf
      constructor
      · obtain ⟨⟨f', h3⟩, -⟩ := ih (fun nu hn => hd nu (by simp [hn])) _ f1 (h2 f1 h1)
        exact ⟨f', .step mu ds f f1 f' hm h1 h3⟩
      · intro f' hr
        rw [List.foldl_cons, if_pos hm]
        cases hr with
        | skip _ _ _ _ hs _ => rw [hm] at hs; cases hs
        | step _ _ _ f2 _ _ hr1 hr2 => exact (ih (fun nu hn => hd nu (by simp [hn])) _ f2 (h2 f2 hr1)).2 f' hr2
    · obtain ⟨⟨f', h3⟩, h4⟩ := ih (fun nu hn => hd nu (by simp [hn])) phi f hf
      constructor
      · exact ⟨f', .skip mu ds f f' (by simpa using hm) h3⟩
      · intro f' hr
        rw [List.foldl_cons, if_neg hm]
        cases hr with
        | skip _ _ _ _ _ hr => exact h4 f' hr
        | step _ _ _ _ _ hs _ _ => exact absurd hs hm

/-- number of points of the transform -/
def points (L : Coords) (sel : Dir → Bool) : Nat := (if sel 0 then L 0 else 1) * (if sel 1 then L 1 else 1) * (if sel 2 then L 2 else 1) * (if sel 3 then L 3 else 1)

theorem norm_eq (L : Coords) (sel : Dir → Bool) : norm L sel = (points L sel : ℂ) := by
  unfold norm points dirs
  simp only [List.foldl_cons, List.foldl_nil]
  split <;> split <;> split <;> split <;> push_cast <;> ring

/-- C36: fft4d ends, and gives the discrete Fourier transform in the selected directions, divided by the number of points if asked -/
theorem C36_fft4d_partial {ncpp : Nat} (g : Geo) (ok : g.Ok) (X : Nat → Nat → Coords) (hX : CoordTable g X) (sel : Dir → Bool) (sign : Int) (normalize : Bool)
    (hd : ∀ mu, sel mu = true → DirOk g X mu) (phi : Coords → Site ncpp) (f : Nat → Nat → Site ncpp) (hf : Represents g X phi f) :
    (∃ res, Fft4d g X sel sign normalize f res) ∧
    ∀ res, Fft4d g X sel sign normalize f res → Represents g X (fun p icpp => if normalize then dftSel g.L sign sel phi p icpp / points g.L sel else dftSel g.L sign sel phi p icpp) res := by
  obtain ⟨⟨f', h1⟩, h2⟩ := dirs_spec g ok X hX sign sel dirs (fun mu _ => hd mu) phi f hf
  refine ⟨⟨_, f', h1, rfl⟩, ?_⟩
  rintro res ⟨f2, h3, rfl⟩ r i hr hi
  have := h2 f2 h3 r i hr hi
  by_cases hn : normalize = true
  · rw [if_pos hn]; simp only [hn, if_true]; funext icpp; rw [this, norm_eq]; rfl
  · rw [if_neg hn]; simp only [hn]; exact this

/-- C36: if all the directions are selected the result is the sum on all the sites, with the product of the phases -/
theorem C36_all_directions {ncpp : Nat} (L : Coords) (sign : Int) (phi : Coords → Site ncpp) : dftSel L sign (fun _ => true) phi = dftAll L sign phi := by
  unfold dftSel dirs dftAll
  simp only [List.foldl_cons, List.foldl_nil, if_true]
  funext p icpp
  unfold dft
  refine Finset.sum_congr rfl (fun x3 _ => ?_)
  rw [Finset.mul_sum]
  refine Finset.sum_congr rfl (fun x2 _ => ?_)
  rw [Finset.mul_sum, Finset.mul_sum]
  refine Finset.sum_congr rfl (fun x1 _ => ?_)
  rw [Finset.mul_sum, Finset.mul_sum, Finset.mul_sum]
  refine Finset.sum_congr rfl (fun x0 _ => ?_)
  have : (Function.update (Function.update (Function.update (Function.update p 3 x3) 2 x2) 1 x1) 0 x0) = ![x0, x1, x2, x3] := by
    funext d; fin_cases d <;> simp [Function.update]
  rw [this]
  simp only [Function.update, show (2 : Dir) ≠ 3 by decide, show (1 : Dir) ≠ 2 by decide, show (1 : Dir) ≠ 3 by decide, show (0 : Dir) ≠ 1 by decide,
    show (0 : Dir) ≠ 2 by decide, show (0 : Dir) ≠ 3 by decide, dif_neg, not_false_eq_true]
  ring

/-! ### Inverse -/

theorem root_pow (sign : Int) (hs : sign = 1 ∨ sign = -1) (n : Nat) (hn : 0 < n) : IsPrimitiveRoot (root sign n) n ∧ root (-sign) n = (root sign n)⁻¹ := by
  have h := Complex.isPrimitiveRoot_exp n (by omega)
  unfold root
  rcases hs with rfl | rfl
  · exact ⟨by simpa using h, by simp⟩
  · refine ⟨?_, by simp⟩
    rw [zpow_neg, zpow_one]; exact h.inv

theorem orthogonality (w : ℂ) (n : Nat) (hn : 0 < n) (hw : IsPrimitiveRoot w n) (x y : Nat) (hx : x < n) (hy : y < n) :
    ∑ k ∈ Finset.range n, (w⁻¹) ^ (y * k) * w ^ (k * x) = if x = y then (n : ℂ) else 0 := by
  have hw0 : w ≠ 0 := hw.ne_zero (by omega)
  have h1 : ∀ k, (w⁻¹) ^ (y * k) * w ^ (k * x) = (w ^ x * (w⁻¹) ^ y) ^ k := by
    intro k
    rw [mul_pow, ← pow_mul, ← pow_mul, Nat.mul_comm x k, mul_comm]
  rw [Finset.sum_congr rfl (fun k _ => h1 k)]
  by_cases hxy : x = y
  · subst hxy
    rw [if_pos rfl, ← mul_pow, mul_inv_cancel₀ hw0, one_pow]
    simp
  · rw [if_neg hxy]
    have hz : w ^ x * (w⁻¹) ^ y ≠ 1 := by
      intro h
      rw [inv_pow] at h
      have : w ^ x = w ^ y := by
        have h2 := congrArg (· * w ^ y) h
        simp only [one_mul] at h2
        rwa [mul_assoc, inv_mul_cancel₀ (pow_ne_zero _ hw0), mul_one] at h2
      exact hxy (hw.pow_inj hx hy this)
    have hzn : (w ^ x * (w⁻¹) ^ y) ^ n = 1 := by
      rw [mul_pow, ← pow_mul, ← pow_mul, Nat.mul_comm x, Nat.mul_comm y, pow_mul, pow_mul, inv_pow, hw.pow_eq_one]; simp
    have := mul_neg_geom_sum (w ^ x * (w⁻¹) ^ y) n
    rw [hzn, sub_self] at this
    rcases mul_eq_zero.1 this with h | h
    · exact absurd (sub_eq_zero.1 h).symm hz
    · exact h

theorem dft_inverse {ncpp : Nat} (L : Coords) (sign : Int) (hs : sign = 1 ∨ sign = -1) (mu : Dir) (hL : 0 < L mu) (phi : Coords → Site ncpp) (c : Coords) (hc : c mu < L mu) (icpp : Fin ncpp) :
    dft L (-sign) mu (dft L sign mu phi) c icpp = L mu * phi c icpp := by
  obtain ⟨hw, hinv⟩ := root_pow sign hs (L mu) hL
  unfold dft
  rw [hinv]
  simp only [Function.update_self, Function.update_idem, Finset.mul_sum]
  rw [Finset.sum_comm]
  have : ∀ x ∈ Finset.range (L mu), ∑ k ∈ Finset.range (L mu), (root sign (L mu))⁻¹ ^ (c mu * k) * (root sign (L mu) ^ (k * x) * phi (Function.update c mu x) icpp) =
      if x = c mu then (L mu : ℂ) * phi (Function.update c mu x) icpp else 0 := by
    intro x hx
    rw [Finset.mem_range] at hx
    have := orthogonality _ (L mu) hL hw x (c mu) hx hc
    rw [Finset.sum_congr rfl (fun k _ => (mul_assoc _ _ _).symm), ← Finset.sum_mul, this]
    split <;> simp
  rw [Finset.sum_congr rfl this, Finset.sum_ite_eq' (Finset.range (L mu)) (c mu), if_pos (Finset.mem_range.2 hc), Function.update_eq_self]

/-- transform in a list of directions -/
noncomputable def dftList {ncpp : Nat} (L : Coords) (sign : Int) (sel : Dir → Bool) (ds : List Dir) (phi : Coords → Site ncpp) : Coords → Site ncpp :=
  ds.foldl (fun phi mu => if sel mu then dft L sign mu phi else phi) phi

theorem dft_comm {ncpp : Nat} (L : Coords) (s t : Int) (mu nu : Dir) (h : mu ≠ nu) (phi : Coords → Site ncpp) : dft L s mu (dft L t nu phi) = dft L t nu (dft L s mu phi) := by
  funext p icpp
  unfold dft
  simp only [Finset.mul_sum]
  rw [Finset.sum_comm]
  refine Finset.sum_congr rfl (fun x _ => Finset.sum_congr rfl (fun y _ => ?_))
  rw [Function.update_of_ne h.symm, Function.update_of_ne h, Function.update_comm h]
  ring

theorem dftList_comm {ncpp : Nat} (L : Coords) (s t : Int) (sel : Dir → Bool) (mu : Dir) (ds : List Dir) (h : mu ∉ ds) (phi : Coords → Site ncpp) :
    dft L s mu (dftList L t sel ds phi) = dftList L t sel ds (dft L s mu phi) := by
  induction ds generalizing phi with
  | nil => rfl
  | cons nu ds ih =>
    rw [List.mem_cons, not_or] at h
    have := ih h.2
    unfold dftList at this ⊢
    rw [List.foldl_cons, List.foldl_cons]
    by_cases hs : sel nu = true
    · rw [if_pos hs, if_pos hs, this, dft_comm _ _ _ _ _ h.1]
    · rw [if_neg hs, if_neg hs, this]

theorem dftList_inverse {ncpp : Nat} (L : Coords) (hL : ∀ mu, 0 < L mu) (sign : Int) (hs : sign = 1 ∨ sign = -1) (sel : Dir → Bool) (ds : List Dir) (hd : ds.Nodup) (phi : Coords → Site ncpp)
    (c : Coords) (hc : ∀ mu, c mu < L mu) (icpp : Fin ncpp) :
    dftList L (-sign) sel ds (dftList L sign sel ds phi) c icpp = (ds.map (fun mu => if sel mu then (L mu : ℂ) else 1)).prod * phi c icpp := by
  induction ds generalizing phi with
  | nil => simp [dftList]
  | cons mu ds ih =>
    rw [List.nodup_cons] at hd
    rw [List.map_cons, List.prod_cons]
    have e : ∀ (s : Int) (phi : Coords → Site ncpp), dftList L s sel (mu :: ds) phi = dftList L s sel ds (if sel mu then dft L s mu phi else phi) := fun s phi => rfl
    rw [e, e]
    by_cases h : sel mu = true
    · rw [if_pos h, if_pos h, if_pos h, dftList_comm _ _ _ _ _ _ hd.1, ih hd.2, dft_inverse L sign hs mu (hL mu) phi c (hc mu)]
      ring
    · rw [if_neg h, if_neg h, if_neg h, ih hd.2]; ring

/-- C36: the transform with the opposite sign, normalised, undoes the transform: every local site has the initial value -/
theorem C36_inverse_partial {ncpp : Nat} (g : Geo) (ok : g.Ok) (X : Nat → Nat → Coords) (hX : CoordTable g X) (sel : Dir → Bool) (sign : Int) (hs : sign = 1 ∨ sign = -1)
    (hd : ∀ mu, sel mu = true → DirOk g X mu) (f f1 f2 : Nat → Nat → Site ncpp) (h1 : Fft4d g X sel sign false f f1) (h2 : Fft4d g X sel (-sign) true f1 f2)
    (r i : Nat) (hr : r < g.nranks) (hi : i < g.locVol) : f2 r i = f r i := by
  have hrep : Represents g X (fun c => f (getLoclxAndRankOfCoords g c).1 (getLoclxAndRankOfCoords g c).2) f := by
    intro r i hr hi
    simp only [(coordTable_of g ok X hX r i hr hi).2]
  have a := (C36_fft4d_partial g ok X hX sel sign false hd _ f hrep).2 f1 h1
  have b := (C36_fft4d_partial g ok X hX sel (-sign) true hd _ f1 a).2 f2 h2 r i hr hi
  obtain ⟨hc, hci⟩ := coordTable_of g ok X hX r i hr hi
  rw [b]
  funext icpp
  simp only [if_true, Bool.false_eq_true, if_false]
  have hl := dftList_inverse g.L (fun mu => L_pos ok mu) sign hs sel dirs (by decide) (fun c => f (getLoclxAndRankOfCoords g c).1 (getLoclxAndRankOfCoords g c).2) _ hc icpp
  have hp : (dirs.map (fun mu => if sel mu then (g.L mu : ℂ) else 1)).prod = (points g.L sel : ℂ) := by
    unfold points dirs
    simp only [List.map_cons, List.map_nil, List.prod_cons, List.prod_nil]
    push_cast
    ring
  have hne : (points g.L sel : ℂ) ≠ 0 := by
    rw [← hp]
    apply List.prod_ne_zero
    simp only [List.mem_map, not_exists, not_and]
    intro mu _ he
    have := L_pos ok mu
    split at he
    · have : (g.L mu : ℂ) ≠ 0 := Nat.cast_ne_zero.2 (by omega)
      exact this he
    · exact one_ne_zero he
  have e : ∀ (s : Int) (psi : Coords → Site ncpp), dftSel g.L s sel psi = dftList g.L s sel dirs psi := fun s psi => rfl
  rw [e, e]
  rw [hp, hci] at hl
  refine (congrArg (· / (points g.L sel : ℂ)) hl).trans ?_
  field_simp

/-- instance: the spatial directions of a lattice with the time divided among four ranks -/
example (mu : Dir) (h : decide (mu ≠ 0) = true) : DirOk geoT (siteCoords geoT) mu :=
  C25_slabs geoT (by decide) _ (siteCoords_table geoT (by decide)) mu 0 (by revert mu; decide) (by decide)

end Nissa.Fft
