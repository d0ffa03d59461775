import Verif.Smearing.Hex
import Verif.Smearing.PropsStout
import Verif.Measures.PropsStagCorr

/-! # Properties of the HEX smearing -/

set_option linter.all false

namespace Nissa.Hex
open Nissa.Lx Nissa.Sten Nissa.Su3f Nissa.Gauge Nissa.Paths Nissa.Clv Nissa.LSm Matrix Complex

noncomputable section

theorem algPart_idem (M : M3) : algPart (algPart M) = algPart M := by
  obtain ⟨h1, h2⟩ := algPart_anti M
  generalize algPart M = N at h1 h2 ⊢
  unfold algPart
  rw [h1, sub_neg_eq_add, ← two_smul ℂ N, smul_smul]
  norm_num
  simp [h2]

theorem smeLink_eq (alpha : ℝ) (S U j0 : M3) :
    smeLink alpha S U j0 = anti_hermitian_exact_exponentiate (alpha • algPart (S * Uᴴ)) * U := by
  unfold smeLink
  simp only [algPart_eq, algPart_idem, idouble_eq]
  unfold anti_hermitian_exact_exponentiate
  congr 2
  rw [← Complex.coe_smul, smul_smul]
  congr 1
  push_cast; ring

section
variable {g : Geo} (ok : g.Ok)
include ok

theorem smeStaple_eq (ji : Nat) (j0 : M3) (A B : Fld) {r : Coords} (hr : IsRank g r) {X : Nat} (hX : X < g.locVol)
    {x : Coords} (hx : glbCoordOfLoclx g r X = some x) {mu sigma : Dir} (hne : sigma ≠ mu) (st : M3) :
    smeStaple (upT g r ji) (dwT g r ji) (mem g j0 A r) (mem g j0 B r) X mu sigma st = st + decStaple g (glob g A) (glob g B) mu sigma x := by
  have e2 : mem g j0 A r (dwT g r ji (upT g r ji X mu) sigma) = _ :=
    mem_step2 ok j0 ji A hr hX hx hne.symm (d := 1) (e := -1) (.inl rfl) (.inr rfl)
  unfold smeStaple decStaple
  simp only [mem_here ok j0 A hr hX hx, mem_up ok j0 ji A hr hX hx mu, mem_up ok j0 ji B hr hX hx sigma, mem_dw ok j0 ji A hr hX hx sigma,
    mem_dw ok j0 ji B hr hX hx sigma, e2]
  rw [tshift_comm g x hne (-1) 1, add_assoc]

theorem sme_eq (ji : Nat) (j0 : M3) (alpha : ℝ) (V : Dir → Dir → Dir → Dir → Fld) (U : Fld) (mu a1 a2 : Dir) {x : Coords} (hx : x ∈ box g.L) :
    glob g (sme g ji j0 alpha V U mu a1 a2) x =
      decSmear g anti_hermitian_exact_exponentiate alpha (Finset.univ.filter fun s => s ≠ mu ∧ s ≠ a1 ∧ s ≠ a2)
        (fun s => glob g (V s mu a1 a2)) (fun s => glob g (V mu a1 a2 s)) (glob g U) mu x := by
  obtain ⟨rk, X, h1, h2, hr, hxg, hG⟩ := lxSite ok hx
  rw [hG]
  unfold sme decSmear
  simp only []
  rw [smeLink_eq, mem_here ok j0 U hr h2 hxg]
  congr 4
  rw [foldl_congr' _ _ (fun s sigma => s + if sigma ≠ mu ∧ sigma ≠ a1 ∧ sigma ≠ a2 then
    decStaple g (glob g (V sigma mu a1 a2)) (glob g (V mu a1 a2 sigma)) mu sigma x else 0) fun st s _ => ?_]
  · unfold dirs
    rw [Finset.sum_filter, Fin.sum_univ_four]
    simp only [List.foldl_cons, List.foldl_nil, zero_add]
  · have hb : ([mu, a1, a2].all fun i => decide (i ≠ s)) = true ↔ (s ≠ mu ∧ s ≠ a1 ∧ s ≠ a2) := by
      simp only [List.all_cons, List.all_nil, Bool.and_true, Bool.and_eq_true, decide_eq_true_eq]
      constructor <;> rintro ⟨h1, h2, h3⟩ <;> exact ⟨h1.symm, h2.symm, h3.symm⟩
    by_cases h : s ≠ mu ∧ s ≠ a1 ∧ s ≠ a2
    · rw [if_pos (hb.2 h), if_pos h]
      exact smeStaple_eq ok ji j0 _ _ hr h2 hxg h.1 st
    · rw [if_neg (fun k => h (hb.1 k)), if_neg h, add_zero]

end

/-! ### the lists -/

theorem fold_last {A V : Type} (key : A → Nat) (f : A → V) (l : List A) (hn : l.Nodup) (hk : ∀ a ∈ l, ∀ b ∈ l, key a = key b → a = b)
    (b : Nat → V) {a : A} (ha : a ∈ l) {k : Nat} (h : key a = k) : (l.foldl (fun b a => Function.update b (key a) (f a)) b) k = f a := by
  subst h
  exact Nissa.Stag.fold_upd key (fun _ a => f a) l hn hk b a ha

theorem level0_eq (conf : Nat → Nat → Quad) (j : Lev) (mu a b c : Dir) : level0 conf j (links0 mu a b c) = fun rk i => conf rk i mu :=
  fold_last (fun mu : Dir => links0 mu 0 0 0) (fun mu rk i => conf rk i mu) dirs (by decide) (by decide) j (a := mu) (by revert mu; decide) rfl

/-- the triple stored at the place of `links1(mu,nu,rho)` -/
def stored (mu nu rho : Dir) : Dir × Dir × Dir := if nu < rho then (mu, nu, rho) else (mu, rho, nu)

theorem level1_eq (g : Geo) (ji : Nat) (j0 : M3) (alpha3 : ℝ) (l0 j : Lev) (t : Dir × Dir × Dir) (ht : t ∈ triples) {k : Nat} (hk : links1 t.1 t.2.1 t.2.2 0 = k) :
    level1 g ji j0 alpha3 l0 j k =
      sme g ji j0 (alpha3 / 2) (fun a b c d => l0 (links0 a b c d)) (l0 (links0 t.1 0 0 0)) t.1 t.2.1 t.2.2 :=
  fold_last (fun t : Dir × Dir × Dir => links1 t.1 t.2.1 t.2.2 0) (fun t => sme g ji j0 (alpha3 / 2) (fun a b c d => l0 (links0 a b c d)) (l0 (links0 t.1 0 0 0)) t.1 t.2.1 t.2.2)
    triples (by decide) (by decide) j ht hk

theorem level2_eq (g : Geo) (ji : Nat) (j0 : M3) (alpha2 : ℝ) (l0 l1 j : Lev) (t : Dir × Dir) (ht : t ∈ pairs) {k : Nat} (hk : links2 t.1 t.2 0 0 = k) :
    level2 g ji j0 alpha2 l0 l1 j k =
      sme g ji j0 (alpha2 / 4) (fun a b c d => l1 (links1 a b c d)) (l0 (links0 t.1 0 0 0)) t.1 t.2 0 :=
  fold_last (fun t : Dir × Dir => links2 t.1 t.2 0 0) (fun t => sme g ji j0 (alpha2 / 4) (fun a b c d => l1 (links1 a b c d)) (l0 (links0 t.1 0 0 0)) t.1 t.2 0)
    pairs (by decide) (by decide) j ht hk

theorem level3_eq (g : Geo) (ji : Nat) (j0 : M3) (alpha1 : ℝ) (l0 l2 j : Lev) (mu : Dir) :
    level3 g ji j0 alpha1 l0 l2 j (links3 mu 0 0 0) =
      sme g ji j0 (alpha1 / 6) (fun a b c d => l2 (links2 a b c d)) (l0 (links0 mu 0 0 0)) mu 0 0 :=
  fold_last (fun mu : Dir => links3 mu 0 0 0) (fun mu => sme g ji j0 (alpha1 / 6) (fun a b c d => l2 (links2 a b c d)) (l0 (links0 mu 0 0 0)) mu 0 0)
    dirs (by decide) (by decide) j (a := mu) (by revert mu; decide) rfl

theorem stored_mem : ∀ mu nu rho : Dir, mu ≠ nu → mu ≠ rho → nu ≠ rho → stored mu nu rho ∈ triples ∧
    links1 (stored mu nu rho).1 (stored mu nu rho).2.1 (stored mu nu rho).2.2 0 = links1 mu nu rho 0 ∧ (stored mu nu rho).1 = mu ∧
    (∀ s, (s ≠ (stored mu nu rho).1 ∧ s ≠ (stored mu nu rho).2.1 ∧ s ≠ (stored mu nu rho).2.2) ↔ (s ≠ mu ∧ s ≠ nu ∧ s ≠ rho)) := by decide

/-- where `links1(mu,nu,0)` falls -/
theorem padded_idx : ∀ mu nu : Dir, mu ≠ nu → links1 mu nu 0 0 = links1 mu (padded mu nu).1 (padded mu nu).2 0 ∧
    mu ≠ (padded mu nu).1 ∧ mu ≠ (padded mu nu).2 ∧ (padded mu nu).1 ≠ (padded mu nu).2 := by decide

theorem pair_mem : ∀ mu nu : Dir, mu ≠ nu → (mu, nu) ∈ pairs := by decide

section
variable {g : Geo} (ok : g.Ok)
include ok

theorem decSmear_congr {E : M3 → M3} {alpha : ℝ} {S : Finset Dir} {A A' B B' : Dir → Coords → M3} {U U' : Coords → M3} {mu : Dir}
    (hA : ∀ s ∈ S, ∀ x ∈ box g.L, A s x = A' s x) (hB : ∀ s ∈ S, ∀ x ∈ box g.L, B s x = B' s x) (hU : ∀ x ∈ box g.L, U x = U' x) {x : Coords} (hx : x ∈ box g.L) :
    decSmear g E alpha S A B U mu x = decSmear g E alpha S A' B' U' mu x := by
  unfold decSmear
  rw [hU x hx, Finset.sum_congr rfl fun s hs => ?_]
  unfold decStaple
  rw [hA s hs x hx, hB s hs _ (tshift_mem_box ok hx s 1), hA s hs _ (tshift_mem_box ok hx mu 1), hA s hs _ (tshift_mem_box ok hx s (-1)),
    hB s hs _ (tshift_mem_box ok hx s (-1)), hA s hs _ (tshift_mem_box ok (tshift_mem_box ok hx s (-1)) mu 1)]

variable (ji : Nat) (j0 : M3) (j : Lev) (U : Nat → Nat → Quad) (a1 a2 a3 : ℝ)

theorem l1_eq (mu nu rho s : Dir) (h1 : mu ≠ nu) (h2 : mu ≠ rho) (h3 : nu ≠ rho) {x : Coords} (hx : x ∈ box g.L) :
    glob g (level1 g ji j0 a3 (level0 U j) j (links1 mu nu rho s)) x = hex1 g anti_hermitian_exact_exponentiate a3 (glob g U) mu nu rho x := by
  obtain ⟨k1, k2, k3, k4⟩ := stored_mem mu nu rho h1 h2 h3
  rw [level1_eq g ji j0 a3 _ j _ k1 (k := links1 mu nu rho s) k2, sme_eq ok _ _ _ _ _ _ _ _ hx, k3]
  simp only [level0_eq]
  unfold hex1
  rw [k3] at k4
  have : (Finset.univ.filter fun s : Dir => s ≠ mu ∧ s ≠ (stored mu nu rho).2.1 ∧ s ≠ (stored mu nu rho).2.2) =
    Finset.univ.filter fun s : Dir => s ≠ mu ∧ s ≠ nu ∧ s ≠ rho := Finset.filter_congr fun s _ => k4 s
  rw [this]
  rfl

theorem l2_eq (mu nu s s' : Dir) (h1 : mu ≠ nu) {x : Coords} (hx : x ∈ box g.L) :
    glob g (level2 g ji j0 a2 (level0 U j) (level1 g ji j0 a3 (level0 U j) j) j (links2 mu nu s s')) x =
      code2 g anti_hermitian_exact_exponentiate a2 a3 (glob g U) mu nu x := by
  rw [level2_eq g ji j0 a2 _ _ j (mu, nu) (pair_mem mu nu h1) (k := links2 mu nu s s') rfl, sme_eq ok _ _ _ _ _ _ _ _ hx]
  unfold code2
  refine decSmear_congr ok (fun s hs y hy => ?_) (fun s hs y hy => ?_) (fun y hy => ?_) hx
  · obtain ⟨-, e1, e2, e3⟩ := Finset.mem_filter.1 hs
    exact l1_eq ok ji j0 j U a3 s mu nu _ e1 e2 h1 hy
  · obtain ⟨p1, p2, p3, p4⟩ := padded_idx mu nu h1
    have : links1 mu nu 0 s = links1 mu (padded mu nu).1 (padded mu nu).2 0 := p1
    beta_reduce
    rw [this]
    exact l1_eq ok ji j0 j U a3 _ _ _ 0 p2 p3 p4 hy
  · rw [level0_eq]; rfl

/-- C68: on any grid of ranks, what `hex_smear_conf` computes, for any configuration and parameters: three nested levels, with the staples
along direction 0 left out at the second and third level, and with always the same link transported. -/
theorem C68_smeared {x : Coords} (hx : x ∈ box g.L) :
    glob g (hex_smear_conf g ji j0 j U a1 a2 a3) x = codeSpec g anti_hermitian_exact_exponentiate a1 a2 a3 (glob g U) x := by
  funext mu
  have : glob g (hex_smear_conf g ji j0 j U a1 a2 a3) x mu =
      glob g (level3 g ji j0 a1 (level0 U j) (level2 g ji j0 a2 (level0 U j) (level1 g ji j0 a3 (level0 U j) j) j) j (links3 mu 0 0 0)) x := rfl
  rw [this, level3_eq, sme_eq ok _ _ _ _ _ _ _ _ hx]
  unfold codeSpec
  have hf : (Finset.univ.filter fun s : Dir => s ≠ mu ∧ s ≠ 0 ∧ s ≠ 0) = Finset.univ.filter fun s : Dir => s ≠ mu ∧ s ≠ 0 :=
    Finset.filter_congr fun s _ => by rw [and_self]
  rw [hf]
  refine decSmear_congr ok (fun s hs y hy => ?_) (fun s hs y hy => ?_) (fun y hy => ?_) hx
  · obtain ⟨-, e1, e2⟩ := Finset.mem_filter.1 hs
    exact l2_eq ok ji j0 j U a2 a3 s mu _ _ e1 hy
  · beta_reduce
    by_cases h0 : mu = 0
    · subst h0
      rw [if_pos rfl]
      have : links2 0 0 0 s = links2 0 1 0 0 := by revert s; decide
      rw [this]
      exact l2_eq ok ji j0 j U a2 a3 0 1 0 0 (by decide) hy
    · rw [if_neg h0]
      exact l2_eq ok ji j0 j U a2 a3 mu 0 0 s h0 hy
  · rw [level0_eq]; rfl


/-! ### Gauge covariance -/

omit ok in
/-- `F'` is the gauge transformed of the link field `F` along `mu` -/
def LinkTr (g : Geo) (G : Coords → M3) (mu : Dir) (F F' : Coords → M3) : Prop := ∀ x ∈ box g.L, F' x = G x * F x * (G (tshift g x mu 1))ᴴ

omit U in
theorem decStaple_tr {G : Coords → M3} (hG : AllUnitary g G) {A A' B B' : Coords → M3} {mu s : Dir} (hne : s ≠ mu) (hA : LinkTr g G s A A') (hB : LinkTr g G mu B B')
    {x : Coords} (hx : x ∈ box g.L) : decStaple g A' B' mu s x = G x * decStaple g A B mu s x * (G (tshift g x mu 1))ᴴ := by
  have hs := tshift_mem_box ok hx s 1
  have hd := tshift_mem_box ok hx s (-1)
  have hm := tshift_mem_box ok hx mu 1
  have hdm := tshift_mem_box ok hd mu 1
  have c1 : ∀ {y}, y ∈ box g.L → ∀ M : M3, (G y)ᴴ * (G y * M) = M := fun hy M => by rw [← Matrix.mul_assoc, hG _ hy, Matrix.one_mul]
  have b1 : tshift g (tshift g x s (-1)) s 1 = x := Nissa.Paths.tshift_back ok hx s (-1) (.inr rfl)
  have b2 : tshift g (tshift g (tshift g x s (-1)) mu 1) s 1 = tshift g x mu 1 := by
    rw [tshift_comm g x hne (-1) 1]
    exact Nissa.Paths.tshift_back ok hm s (-1) (.inr rfl)
  have b3 : tshift g (tshift g x mu 1) s 1 = tshift g (tshift g x s 1) mu 1 := tshift_comm g x hne.symm 1 1
  unfold decStaple
  rw [hA x hx, hB _ hs, hA _ hm, hA _ hd, hB _ hd, hA _ hdm, b1, b2, b3]
  simp only [conjTranspose_mul, conjTranspose_conjTranspose, Matrix.mul_assoc, Matrix.mul_add, Matrix.add_mul, c1 hs, c1 hd, c1 hdm,
    c1 (tshift_mem_box ok hs mu 1)]

theorem decSmear_tr {G : Coords → M3} (hG : AllUnitary g G) {alpha : ℝ} {S : Finset Dir} {A A' B B' : Dir → Coords → M3} {U U' : Coords → M3} {mu : Dir} (hS : mu ∉ S)
    (hA : ∀ s ∈ S, LinkTr g G s (A s) (A' s)) (hB : ∀ s ∈ S, LinkTr g G mu (B s) (B' s)) (hU : LinkTr g G mu U U') :
    LinkTr g G mu (decSmear g anti_hermitian_exact_exponentiate alpha S A B U mu) (decSmear g anti_hermitian_exact_exponentiate alpha S A' B' U' mu) := by
  intro x hx
  have hm := tshift_mem_box ok hx mu 1
  have c1 : ∀ {y}, y ∈ box g.L → ∀ M : M3, (G y)ᴴ * (G y * M) = M := fun hy M => by rw [← Matrix.mul_assoc, hG _ hy, Matrix.one_mul]
  unfold decSmear
  rw [Finset.sum_congr rfl fun s hs => decStaple_tr ok hG (fun h : s = mu => hS (h ▸ hs)) (hA s hs) (hB s hs) hx, ← Finset.sum_mul, ← Finset.mul_sum, hU x hx]
  have : ∀ M : M3, G x * M * (G (tshift g x mu 1))ᴴ * (G x * U x * (G (tshift g x mu 1))ᴴ)ᴴ = G x * (M * (U x)ᴴ) * (G x)ᴴ := by
    intro M
    simp only [conjTranspose_mul, conjTranspose_conjTranspose, Matrix.mul_assoc, c1 hm]
  rw [this, algPart_conj _ _ (hG x hx)]
  have : ∀ M : M3, alpha • (G x * M * (G x)ᴴ) = G x * (alpha • M) * (G x)ᴴ := fun M => by rw [Matrix.mul_smul, Matrix.smul_mul]
  rw [this, aexp_conj _ _ (hG x hx)]
  simp only [Matrix.mul_assoc, c1 hx]

theorem hex1_tr {G : Coords → M3} (hG : AllUnitary g G) {V W : Coords → Quad} (h : ∀ mu, LinkTr g G mu (fun x => V x mu) (fun x => W x mu)) (mu nu rho : Dir) :
    LinkTr g G mu (hex1 g anti_hermitian_exact_exponentiate a3 V mu nu rho) (hex1 g anti_hermitian_exact_exponentiate a3 W mu nu rho) :=
  decSmear_tr ok hG (fun hm => (Finset.mem_filter.1 hm).2.1 rfl) (fun s _ => h s) (fun _ _ => h mu) (h mu)

theorem code2_tr {G : Coords → M3} (hG : AllUnitary g G) {V W : Coords → Quad} (h : ∀ mu, LinkTr g G mu (fun x => V x mu) (fun x => W x mu)) (mu nu : Dir) :
    LinkTr g G mu (code2 g anti_hermitian_exact_exponentiate a2 a3 V mu nu) (code2 g anti_hermitian_exact_exponentiate a2 a3 W mu nu) :=
  decSmear_tr ok hG (fun hm => (Finset.mem_filter.1 hm).2.1 rfl) (fun s _ => hex1_tr ok a3 hG h s mu nu) (fun _ _ => hex1_tr ok a3 hG h mu _ _) (h mu)

/-- C68: smearing the gauge transformed configuration gives the gauge transformation of the smeared one, for any unitary transformation, with
no condition on the parameters. -/
theorem C68_covariant (ji' ji'' : Nat) (jg jg' j0' : M3) (j' : Lev) (G : Nat → Nat → M3) (hG : ∀ rk, rk < g.nranks → ∀ i, i < g.locVol → (G rk i)ᴴ * G rk i = 1) :
    ∀ x ∈ box g.L, glob g (hex_smear_conf g ji j0 j (gauge_transform_conf g ji' jg G U) a1 a2 a3) x =
      glob g (gauge_transform_conf g ji'' jg' G (hex_smear_conf g ji j0' j' U a1 a2 a3)) x := by
  have hG' := allUnitary_glob ok G hG
  intro x hx
  rw [C68_smeared ok ji j0 j _ a1 a2 a3 hx, C32_gauge_transform ok ji'' jg' G _ x hx]
  funext mu
  unfold transformed
  rw [C68_smeared ok ji j0' j' U a1 a2 a3 hx]
  have h : ∀ mu, LinkTr g (glob g G) mu (fun x => glob g U x mu) (fun x => glob g (gauge_transform_conf g ji' jg G U) x mu) := fun mu y hy => by
    beta_reduce
    rw [C32_gauge_transform ok ji' jg G U y hy]; rfl
  exact decSmear_tr ok hG' (fun hm => (Finset.mem_filter.1 hm).2.1 rfl) (fun s _ => code2_tr ok a2 a3 hG' h s mu) (fun _ _ => code2_tr ok a2 a3 hG' h mu _) (h mu) x hx

/-! ### Special unitarity, trivial cases -/

/-- C68: each smeared link is the product of the exponential of a traceless antihermitian matrix and of the original link: it stays in
SU(3), whatever the parameters, when the exponent of the last level is null or not in the branches where the library truncates a series. -/
theorem C68_su3 {x : Coords} (hx : x ∈ box g.L) (mu : Dir) (hU : IsSU3 (glob g U x mu)) :
    ∃ A : M3, Aᴴ = -A ∧ Matrix.trace A = 0 ∧
      glob g (hex_smear_conf g ji j0 j U a1 a2 a3) x mu = anti_hermitian_exact_exponentiate A * glob g U x mu ∧
      (A = 0 ∨ Regular A → IsSU3 (glob g (hex_smear_conf g ji j0 j U a1 a2 a3) x mu)) := by
  rw [C68_smeared ok ji j0 j U a1 a2 a3 hx]
  unfold codeSpec decSmear
  generalize hM : (∑ sigma ∈ _, _ : M3) * (glob g U x mu)ᴴ = M
  obtain ⟨h1, h2⟩ := anti_smul (algPart_anti M) (a1 / 6)
  refine ⟨(a1 / 6) • algPart M, h1, h2, rfl, fun h => ?_⟩
  rcases h with h | h
  · beta_reduce; rw [h, aexp_zero, Matrix.one_mul]; exact hU
  · exact su3_mul (C38_anti_exponential _ h1 h2 h.1 h.2.1 h.2.2).2 hU

/-- C68: with a null weight for the last level nothing changes -/
theorem C68_null {x : Coords} (hx : x ∈ box g.L) : glob g (hex_smear_conf g ji j0 j U 0 a2 a3) x = glob g U x := by
  rw [C68_smeared ok ji j0 j U 0 a2 a3 hx]
  funext mu
  unfold codeSpec decSmear
  rw [zero_div, zero_smul, aexp_zero, Matrix.one_mul]

omit ok in
theorem algPart_real (c : ℝ) : algPart ((c : ℂ) • (1 : M3)) = 0 := by
  unfold algPart
  have : ((c : ℂ) • (1 : M3))ᴴ = (c : ℂ) • (1 : M3) := by rw [conjTranspose_smul, conjTranspose_one]; simp
  rw [this, sub_self, smul_zero, Matrix.trace_zero, zero_div, zero_smul, sub_zero]

theorem decSmear_one {alpha : ℝ} {S : Finset Dir} {A B : Dir → Coords → M3} {U : Coords → M3} {mu : Dir}
    (hA : ∀ s ∈ S, ∀ x ∈ box g.L, A s x = 1) (hB : ∀ s ∈ S, ∀ x ∈ box g.L, B s x = 1) (hU : ∀ x ∈ box g.L, U x = 1) :
    ∀ x ∈ box g.L, decSmear g anti_hermitian_exact_exponentiate alpha S A B U mu x = 1 := by
  intro x hx
  rw [decSmear_congr ok (A' := fun _ _ => 1) (B' := fun _ _ => 1) (U' := fun _ => 1) hA hB hU hx]
  unfold decSmear decStaple
  have : ((∑ sigma ∈ S, ((1 : M3) * 1 * 1ᴴ + 1ᴴ * 1 * 1)) * (1 : M3)ᴴ) = (((2 * S.card : ℝ) : ℂ)) • (1 : M3) := by
    rw [Finset.sum_const, conjTranspose_one, Matrix.mul_one, Matrix.mul_one, Matrix.mul_one, one_add_one_eq_two]
    ext i k
    rw [Matrix.smul_apply, Matrix.smul_apply, nsmul_eq_mul]
    rw [show ((2 : M3)) = (2 : ℂ) • (1 : M3) by rw [← one_add_one_eq_two, ← one_add_one_eq_two, add_smul, one_smul]]
    rw [Matrix.smul_apply, smul_eq_mul, smul_eq_mul]; push_cast; ring
  beta_reduce
  rw [this, algPart_real, smul_zero, aexp_zero, Matrix.one_mul]

theorem cold_fixed {x : Coords} (hx : x ∈ box g.L) (mu : Dir) : glob g (hex_smear_conf g ji j0 j (fun _ _ _ => 1) a1 a2 a3) x mu = 1 := by
  rw [C68_smeared ok ji j0 j _ a1 a2 a3 hx]
  have h1 : ∀ mu nu rho : Dir, ∀ x ∈ box g.L, hex1 g anti_hermitian_exact_exponentiate a3 (glob g fun _ _ _ => 1) mu nu rho x = 1 := fun mu nu rho =>
    decSmear_one ok (fun _ _ _ _ => rfl) (fun _ _ _ _ => rfl) (fun _ _ => rfl)
  have h2 : ∀ mu nu : Dir, ∀ x ∈ box g.L, code2 g anti_hermitian_exact_exponentiate a2 a3 (glob g fun _ _ _ => 1) mu nu x = 1 := fun mu nu =>
    decSmear_one ok (fun _ _ => h1 _ _ _) (fun _ _ => h1 _ _ _) (fun _ _ => rfl)
  exact decSmear_one ok (fun _ _ => h2 _ _) (fun _ _ => h2 _ _) (fun _ _ => rfl) x hx

/-- C68: the gauge transformations of the configuration with all links equal to the identity are not changed. -/
theorem C68_pure_gauge (ji' : Nat) (jg : M3) (G : Nat → Nat → M3) (hG : ∀ rk, rk < g.nranks → ∀ i, i < g.locVol → (G rk i)ᴴ * G rk i = 1) :
    ∀ x ∈ box g.L, glob g (hex_smear_conf g ji j0 j (gauge_transform_conf g ji' jg G (fun _ _ _ => 1)) a1 a2 a3) x =
      glob g (gauge_transform_conf g ji' jg G (fun _ _ _ => 1)) x := by
  intro x hx
  rw [C68_covariant ok ji j0 j (fun _ _ _ => 1) a1 a2 a3 ji' ji' jg jg j0 j G hG x hx, C32_gauge_transform ok ji' jg G _ x hx, C32_gauge_transform ok ji' jg G _ x hx]
  funext mu
  unfold transformed
  rw [cold_fixed ok ji j0 j a1 a2 a3 hx]; rfl

/-! ### Comparison with the definition of HEX -/

omit ok in
theorem decSmear_zero {E : M3 → M3} (hE : E 0 = 1) {S : Finset Dir} {A B : Dir → Coords → M3} {U : Coords → M3} {mu : Dir} (x : Coords) :
    decSmear g E 0 S A B U mu x = U x := by
  unfold decSmear
  rw [zero_smul, hE, Matrix.one_mul]

/-- C68, what holds of the definition of HEX: with the two inner levels switched off the links along direction 0 are smeared as they should.
Missing: the same for the other links and the other parameters, which is false (`C68_violated_hex`). -/
theorem C68_hex_partial {x : Coords} (hx : x ∈ box g.L) :
    glob g (hex_smear_conf g ji j0 j U a1 0 0) x 0 = hexSpec g anti_hermitian_exact_exponentiate a1 0 0 (glob g U) x 0 := by
  rw [C68_smeared ok ji j0 j U a1 0 0 hx]
  unfold codeSpec hexSpec
  have hf : (Finset.univ.filter fun s : Dir => s ≠ 0 ∧ s ≠ 0) = Finset.univ.filter fun s : Dir => s ≠ 0 := Finset.filter_congr fun s _ => by rw [and_self]
  rw [hf]
  have h1 : ∀ mu nu y, code2 g anti_hermitian_exact_exponentiate 0 0 (glob g U) mu nu y = glob g U y mu := fun mu nu y => by
    unfold code2; rw [zero_div, decSmear_zero aexp_zero]
  have h2 : ∀ mu nu y, hex2 g anti_hermitian_exact_exponentiate 0 0 (glob g U) mu nu y = glob g U y mu := fun mu nu y => by
    unfold hex2; rw [zero_div, decSmear_zero aexp_zero]
  exact decSmear_congr ok (fun s _ y _ => by rw [h1, h2]) (fun s _ y _ => by rw [h1, h2]) (fun y _ => rfl) hx

/-- C68 (violated): with the two inner levels switched off a link along `mu` different from direction 0 does not depend on any of the links along direction 0: the
staples in the plane `(mu,0)`, part of the definition, never enter. -/
theorem C68_violated_time_staples (ji' : Nat) (j0' : M3) (j' : Lev) (U' : Nat → Nat → Quad) (h : ∀ x ∈ box g.L, ∀ mu, mu ≠ 0 → glob g U' x mu = glob g U x mu)
    {x : Coords} (hx : x ∈ box g.L) {mu : Dir} (hmu : mu ≠ 0) :
    glob g (hex_smear_conf g ji' j0' j' U' a1 0 0) x mu = glob g (hex_smear_conf g ji j0 j U a1 0 0) x mu := by
  rw [C68_smeared ok ji j0 j U a1 0 0 hx, C68_smeared ok ji' j0' j' U' a1 0 0 hx]
  unfold codeSpec
  have h1 : ∀ V : Coords → Quad, ∀ mu nu y, code2 g anti_hermitian_exact_exponentiate 0 0 V mu nu y = V y mu := fun V mu nu y => by
    unfold code2; rw [zero_div, decSmear_zero aexp_zero]
  exact decSmear_congr ok (fun s hs y hy => by rw [h1, h1]; exact h y hy s (Finset.mem_filter.1 hs).2.2) (fun s _ y hy => by rw [h1, h1]; exact h y hy mu hmu)
    (fun y hy => h y hy mu hmu) hx

end

/-! ### A configuration on which HEX and the computed smearing differ -/

/-- a matrix of SU(3) -/
def exD : M3 := Matrix.diagonal ![I, -I, 1]

/-- all links equal to the identity, but one along the time -/
def exConf : Nat → Nat → Quad := fun rk i mu => if rk = 0 ∧ i = 0 ∧ mu = 0 then exD else 1

theorem exConf_su3 (rk i : Nat) (mu : Dir) : IsSU3 (exConf rk i mu) := by
  unfold exConf
  split
  · constructor
    · unfold exD
      rw [Matrix.diagonal_conjTranspose, Matrix.diagonal_mul_diagonal, ← Matrix.diagonal_one]
      congr 1
      funext k; fin_cases k <;> simp
    · unfold exD; rw [Matrix.det_diagonal, Fin.prod_univ_three]; simp
  · constructor
    · simp
    · simp

theorem exp_ne {t : ℝ} (h0 : 0 < t) (h1 : t < 1) : NormedSpace.exp (t • (Matrix.diagonal ![I, -I, 0] : M3)) ≠ 1 := by
  intro h
  have e : t • (Matrix.diagonal ![I, -I, 0] : M3) = Matrix.diagonal (t • ![I, -I, 0]) := (Matrix.diagonal_smul t _).symm
  rw [e, Matrix.exp_diagonal] at h
  have h2 := congrFun (congrFun h 0) 0
  rw [Matrix.diagonal_apply_eq, Matrix.one_apply_eq, Pi.coe_exp, ← Complex.exp_eq_exp_ℂ] at h2
  obtain ⟨n, hn⟩ := Complex.exp_eq_one_iff.1 h2
  have h3 := congrArg Complex.im hn
  simp at h3
  have hpi := Real.two_le_pi
  rcases le_or_gt n 0 with hn | hn
  · have : (n : ℝ) ≤ 0 := by exact_mod_cast hn
    nlinarith
  · have : (1 : ℝ) ≤ n := by exact_mod_cast hn
    nlinarith

theorem smOk : smGeo.Ok := by decide

/-- C68 (violated): the result is not the HEX smearing.  With only the outermost level on, and any weight between 0 and 6, there is a configuration of SU(3)
matrices, on a lattice of 4^4 sites split among four ranks, on which a smeared spatial link differs from the definition (with the exact exponential). -/
theorem C68_violated_hex (ji : Nat) (j0 : M3) (j : Lev) (a1 : ℝ) (h0 : 0 < a1) (h6 : a1 < 6) :
    ∃ U : Nat → Nat → Quad, (∀ rk i mu, IsSU3 (U rk i mu)) ∧ ∃ x ∈ box smGeo.L,
      glob smGeo (hex_smear_conf smGeo ji j0 j U a1 0 0) x 1 ≠ hexSpec smGeo NormedSpace.exp a1 0 0 (glob smGeo U) x 1 := by
  refine ⟨exConf, exConf_su3, fun _ => 0, by decide, ?_⟩
  have hx : (fun _ => 0 : Coords) ∈ box smGeo.L := by decide
  have hg : ∀ x mu, glob smGeo exConf x mu = if (getLoclxAndRankOfCoords smGeo x).1 = 0 ∧ (getLoclxAndRankOfCoords smGeo x).2 = 0 ∧ mu = 0 then exD else 1 := fun x mu => rfl
  rw [C68_violated_time_staples smOk ji j0 j (fun _ _ _ => 1) a1 ji j0 j exConf (fun x _ mu hmu => by rw [hg, if_neg (by tauto)]; rfl) hx (by decide), cold_fixed smOk ji j0 j a1 0 0 hx]
  have h2 : ∀ mu nu, hex2 smGeo NormedSpace.exp 0 0 (glob smGeo exConf) mu nu = fun y => glob smGeo exConf y mu := fun mu nu => by
    funext y; unfold hex2; rw [zero_div, decSmear_zero NormedSpace.exp_zero]
  unfold hexSpec
  simp only [h2]
  have hs : ∀ s : Dir, (∑ sigma ∈ Finset.univ.filter (fun s : Dir => s ≠ 1), decStaple smGeo (fun y => glob smGeo exConf y sigma) (fun y => glob smGeo exConf y 1) 1 sigma (fun _ => 0)) =
      exD + (5 : ℂ) • (1 : M3) := by
    intro s
    rw [show (Finset.univ.filter (fun s : Dir => s ≠ 1)) = {0, 2, 3} by decide, Finset.sum_insert (by decide), Finset.sum_insert (by decide), Finset.sum_singleton]
    have c1 : ∀ y, glob smGeo exConf y 1 = 1 := fun y => by rw [hg, if_neg (by intro h; exact absurd h.2.2 (by decide))]
    have c2 : ∀ y, glob smGeo exConf y 2 = 1 := fun y => by rw [hg, if_neg (by intro h; exact absurd h.2.2 (by decide))]
    have c3 : ∀ y, glob smGeo exConf y 3 = 1 := fun y => by rw [hg, if_neg (by intro h; exact absurd h.2.2 (by decide))]
    have d0 : glob smGeo exConf (fun _ => 0) 0 = exD := by rw [hg, if_pos (by decide +kernel)]
    have d1 : glob smGeo exConf (tshift smGeo (fun _ => 0) 1 1) 0 = 1 := by rw [hg, if_neg (by decide +kernel)]
    have d2 : glob smGeo exConf (tshift smGeo (fun _ => 0) 0 (-1)) 0 = 1 := by rw [hg, if_neg (by decide +kernel)]
    have d3 : glob smGeo exConf (tshift smGeo (tshift smGeo (fun _ => 0) 0 (-1)) 1 1) 0 = 1 := by rw [hg, if_neg (by decide +kernel)]
    unfold decStaple
    simp only [c1, c2, c3, d0, d1, d2, d3, conjTranspose_one, Matrix.mul_one]
    rw [add_assoc]
    congr 1
    rw [show (5 : ℂ) = 1 + (1 + 1 + (1 + 1)) by norm_num]
    simp only [add_smul, one_smul]
  unfold decSmear
  rw [hs 0]
  have e1 : glob smGeo exConf (fun _ => 0) 1 = 1 := by rw [hg, if_neg (by decide)]
  simp only [e1, conjTranspose_one, Matrix.mul_one]
  have hp : algPart (exD + (5 : ℂ) • (1 : M3)) = Matrix.diagonal ![I, -I, 0] := by
    unfold algPart exD
    ext a b
    fin_cases a <;> fin_cases b <;> simp [Matrix.trace, Fin.sum_univ_three, Matrix.diagonal, Matrix.one_apply] <;> ring
  rw [hp]
  exact (exp_ne (by linarith) (by linarith)).symm

/-- hypotheses of the theorems met: a grid of four ranks, a configuration which is not pure gauge -/
example : smGeo.Ok ∧ (∀ rk i mu, IsSU3 (exConf rk i mu)) ∧ (fun _ => 0 : Coords) ∈ box smGeo.L := ⟨smOk, exConf_su3, by decide⟩

end
end Nissa.Hex
