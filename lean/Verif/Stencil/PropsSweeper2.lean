import Verif.Stencil.PropsSweeper
import Verif.Color.PropsSu3Ortho
import Verif.Color.PropsSu3Sub

/-! # The staples of the sweeper, and its initialisation (property C70)

* the staples of the Wilson sweeper are the sum of the six square staples;
* those of the Symanzik sweeper are the combination of squares and rectangles, under a condition on one link per plane; the
  product with the daggered link of the backward down rectangle drops one of the three terms of the sum, and without the
  condition the result is wrong;
* on one rank the initialisation of both sweepers stops the program, whatever the lattice: local site and rank are exchanged
  in the search of the links;
* the sweeper of the tree level Symanzik action is returned with the coefficient of the Iwasaki one. -/

set_option linter.all false

namespace Nissa.Sweep
open Nissa.Lx Nissa.Sten Nissa.Gauge Nissa.Paths Nissa.Su3f
open Matrix

/-! ## Specification -/

/-- Neighbour of a site on the torus -/
def nb (L : Coords) (c : Coords) (mu : Dir) (d : Int) : Coords := Function.update c mu (((c mu : Int) + d) % L mu).toNat

/-- Sum of the square staples of the link `(A,mu)` -/
def squareStaples (L : Coords) (U : Coords → Dir → M3) (A : Coords) (mu : Dir) : M3 :=
  ((Geo.perpDirs mu).map fun nu =>
    let D := nb L A nu (-1)
    (U D nu)ᴴ * U D mu * U (nb L D mu 1) nu + U A nu * U (nb L A nu 1) mu * (U (nb L A mu 1) nu)ᴴ).sum

/-- Sum of the rectangular staples of the link `(A,mu)`: those of the plane `(mu,nu)` long in the direction `nu` on one side or
the other, and those long in the direction `mu`, in which the link is at the beginning or at the end -/
def rectStaples (L : Coords) (U : Coords → Dir → M3) (A : Coords) (mu : Dir) : M3 :=
  ((Geo.perpDirs mu).map fun nu =>
    let F := nb L A mu 1       -- end of the link
    let Lp := nb L A mu (-1)
    let J := nb L A nu (-1)
    let I := nb L A nu (-2)
    let B := nb L A nu 1
    let C := nb L A nu 2
    -- long in the direction nu
    (U J nu)ᴴ * (U I nu)ᴴ * U I mu * U (nb L I mu 1) nu * U (nb L J mu 1) nu +
    U A nu * U B nu * U C mu * (U (nb L B mu 1) nu)ᴴ * (U F nu)ᴴ +
    -- long in the direction mu, the link is the first of the side
    ((U J nu)ᴴ * U J mu * U (nb L J mu 1) mu * U (nb L J mu 2) nu * (U F mu)ᴴ +
     U A nu * U B mu * U (nb L B mu 1) mu * (U (nb L A mu 2) nu)ᴴ * (U F mu)ᴴ) +
    -- long in the direction mu, the link is the second of the side
    ((U Lp mu)ᴴ * (U (nb L J mu (-1)) nu)ᴴ * U (nb L J mu (-1)) mu * U J mu * U (nb L J mu 1) nu +
     (U Lp mu)ᴴ * U Lp nu * U (nb L B mu (-1)) mu * U B mu * (U F nu)ᴴ)).sum

/-- The links listed, read from the configuration -/
def linksOf (U : Coords → Dir → M3) (ls : List (Coords × Dir)) (k : Nat) : M3 := (ls[k]?.map (fun l => U l.1 l.2)).getD 0

/-! ## Lemmas -/

theorem pt_nb {L A : Coords} {mu nu : Dir} (hn : nu ≠ mu) {a b : Nat} {da db : Int}
    (ha : (a : Int) = ((A mu : Int) + da) % L mu) (hb : (b : Int) = ((A nu : Int) + db) % L nu) :
    pt A mu nu a b = nb L (nb L A nu db) mu da := by
  have ha' : (((A mu : Int) + da) % L mu).toNat = a := by omega
  have hb' : (((A nu : Int) + db) % L nu).toNat = b := by omega
  unfold nb pt
  rw [Function.update_of_ne hn.symm, ha', hb', Function.update_comm hn.symm]

theorem pt_nb_mu {A : Coords} {L : Coords} {mu nu : Dir} (hn : nu ≠ mu) {a : Nat} {da : Int}
    (ha : (a : Int) = ((A mu : Int) + da) % L mu) : pt A mu nu a (A nu) = nb L A mu da := by
  have ha' : (((A mu : Int) + da) % L mu).toNat = a := by omega
  unfold nb pt
  rw [ha']
  funext rho
  simp only [Function.update_apply]
  split_ifs with h1 h2 h2
  · subst h1; exact absurd h2 hn
  · subst h1; rfl
  · rfl
  · rfl

theorem pt_nb_nu {A : Coords} {L : Coords} {mu nu : Dir} {b : Nat} {db : Int}
    (hb : (b : Int) = ((A nu : Int) + db) % L nu) : pt A mu nu (A mu) b = nb L A nu db := by
  have hb' : (((A nu : Int) + db) % L nu).toNat = b := by omega
  unfold nb pt
  rw [hb', Function.update_eq_self]

/-- the links of the six square staples, one plane at a time -/
theorem wilson_block (L : Coords) (hL : ∀ rho, 1 ≤ L rho) (U : Coords → Dir → M3) (A : Coords) (mu nu : Dir) (hn : nu ≠ mu) :
    (wilsonLinksNu L A mu nu).map (fun l => U l.1 l.2) =
      let D := nb L A nu (-1)
      [U D nu, U D mu, U (nb L D mu 1) nu, U A nu, U (nb L A nu 1) mu, U (nb L A mu 1) nu] := by
  have u1 := up_mod (L mu) (A mu) 1
  have u2 := up_mod (L nu) (A nu) 1
  have w2 := dw_mod (x := A nu) (hL nu)
  rw [Nat.cast_one] at u1 u2 w2
  simp only [wilsonLinksNu, List.map_cons, List.map_nil, pt_nb_nu w2, pt_nb hn u1 w2, pt_nb_nu u2, pt_nb_mu hn u1]

/-- Whatever the configuration, the Wilson sweeper computes the sum of the six square staples of the link. -/
theorem C70_wilson_staples (L : Coords) (hL : ∀ rho, 1 ≤ L rho) (U : Coords → Dir → M3) (A : Coords) (mu : Dir) :
    computeWilson (linksOf U (wilsonLinks L A mu)) = squareStaples L U A mu := by
  have key : ∀ n0 n1 n2 : Dir, Geo.perpDirs mu = [n0, n1, n2] → n0 ≠ mu → n1 ≠ mu → n2 ≠ mu →
      computeWilson (linksOf U (wilsonLinks L A mu)) = squareStaples L U A mu := by
    intro n0 n1 n2 hp h0 h1 h2
    have e : ∀ k, linksOf U (wilsonLinks L A mu) k = (((wilsonLinks L A mu).map (fun l => U l.1 l.2))[k]?).getD 0 := by
      intro k; unfold linksOf; rw [List.getElem?_map]
    have e2 : (wilsonLinks L A mu).map (fun l => U l.1 l.2) =
        (wilsonLinksNu L A mu n0).map (fun l => U l.1 l.2) ++ ((wilsonLinksNu L A mu n1).map (fun l => U l.1 l.2) ++
          (wilsonLinksNu L A mu n2).map (fun l => U l.1 l.2)) := by
      unfold wilsonLinks
      rw [hp]
      simp
    rw [wilson_block L hL U A mu n0 h0, wilson_block L hL U A mu n1 h1, wilson_block L hL U A mu n2 h2] at e2
    simp only [List.cons_append, List.nil_append] at e2
    simp only [computeWilson, List.foldl_cons, List.foldl_nil, e, e2, squareStaples, hp, List.map_cons, List.map_nil, List.sum_cons,
      List.sum_nil]
    simp only [Nat.reduceMul, Nat.reduceAdd, List.getElem?_cons_zero, List.getElem?_cons_succ, Option.getD_some, zero_add, add_zero]
    abel
  fin_cases mu
  · exact key 1 2 3 rfl (by decide) (by decide) (by decide)
  · exact key 0 2 3 rfl (by decide) (by decide) (by decide)
  · exact key 0 1 3 rfl (by decide) (by decide) (by decide)
  · exact key 0 1 2 rfl (by decide) (by decide) (by decide)

/-! ### Symanzik -/

theorem third_rows {j X : M3} : su3_build_third_row (rows2 j X) = su3_build_third_row X := by
  ext i k
  fin_cases i <;> fin_cases k <;> rfl

theorem prod2_rows (j a X c : M3) : prod2 j (rows2 a X) c = rows2 j (X * c) := by
  ext i k
  fin_cases i <;> simp [prod2, rows2, Matrix.mul_apply]

theorem prodDag2_rows (j a X c : M3) : prodDag2 j (rows2 a X) c = rows2 j (X * cᴴ) := by
  ext i k
  fin_cases i <;> simp [prodDag2, rows2, Matrix.mul_apply]

theorem dagProd2_eq (j b c : M3) (h0 : b 2 0 = 0) (h1 : b 2 1 = 0) : dagProd2 j b c = rows2 j (bᴴ * c) := by
  ext i k
  fin_cases i <;> simp [dagProd2, rows2, Matrix.mul_apply, Fin.sum_univ_three, h0, h1, Matrix.conjTranspose_apply]

theorem su3_dag {U : M3} (h : IsSU3 U) : IsSU3 Uᴴ := by
  refine ⟨?_, ?_⟩
  · rw [conjTranspose_conjTranspose]
    exact mul_eq_one_comm.1 h.1
  · rw [det_conjTranspose, h.2, star_one]

/-- the truncated product -/
def trunc (b c : M3) : M3 := fun i j => (starRingEnd ℂ) (b 0 i) * c 0 j + (starRingEnd ℂ) (b 1 i) * c 1 j

theorem trunc_build (b c d : M3) (h : IsSU3 (bᴴ * c * d)) (h0 : b 2 0 = 0) (h1 : b 2 1 = 0) :
    su3_build_third_row (trunc b c * d) = bᴴ * c * d := by
  have e : rows2 0 (trunc b c) = rows2 0 (bᴴ * c) := dagProd2_eq 0 b c h0 h1
  have e2 : rows2 0 (trunc b c * d) = rows2 0 (bᴴ * c * d) := by
    rw [← prod2_rows 0 0, ← prod2_rows 0 0 (bᴴ * c), e]
  rw [← third_rows (j := 0) (X := trunc b c * d), e2, third_rows, (C37_third_row _).2 h]

/-- contribution of one plane, the two common links left out -/
theorem symanzik_step (j1 j2 : M3) (l : Nat → M3) (hl : ∀ k, k < 28 → IsSU3 (l k)) (a : Acc) :
    symanzikStep j1 j2 l a =
      ⟨a.squares + (l 0)ᴴ * l 1 * l 2 + l 3 * l 4 * (l 5)ᴴ,
       a.rectangles + (l 10)ᴴ * (l 11)ᴴ * l 12 * l 13 * l 14 + l 21 * l 22 * l 23 * (l 24)ᴴ * (l 25)ᴴ,
       a.up + (l 0)ᴴ * l 1 * l 15 * l 16 + l 3 * l 4 * l 26 * (l 27)ᴴ,
       a.dw + su3_build_third_row (trunc (l 6) (l 7) * l 8) * l 9 + l 17 * l 18 * l 19 * (l 20)ᴴ⟩ := by
  have s := fun k h => hl k h
  have c2 : su3_build_third_row ((l 10)ᴴ * (l 11)ᴴ * l 12 * l 13) = (l 10)ᴴ * (l 11)ᴴ * l 12 * l 13 :=
    (C37_third_row _).2 (su3_mul (su3_mul (su3_mul (su3_dag (s 10 (by norm_num))) (su3_dag (s 11 (by norm_num)))) (s 12 (by norm_num)))
      (s 13 (by norm_num)))
  have c3 : su3_build_third_row (l 17 * l 18 * l 19) = l 17 * l 18 * l 19 :=
    (C37_third_row _).2 (su3_mul (su3_mul (s 17 (by norm_num)) (s 18 (by norm_num))) (s 19 (by norm_num)))
  have c4 : su3_build_third_row (l 21 * l 22 * l 23 * (l 24)ᴴ) = l 21 * l 22 * l 23 * (l 24)ᴴ :=
    (C37_third_row _).2 (su3_mul (su3_mul (su3_mul (s 21 (by norm_num)) (s 22 (by norm_num))) (s 23 (by norm_num))) (su3_dag (s 24 (by norm_num))))
  have p : ∀ j b c : M3, prod2 j b c = rows2 j (b * c) := fun _ _ _ => rfl
  have q : ∀ j b c : M3, dagProdDag2 j b c = rows2 j (bᴴ * cᴴ) := fun _ _ _ => rfl
  have r : ∀ j b c : M3, dagProd2 j b c = rows2 j (trunc b c) := fun _ _ _ => rfl
  simp only [symanzikStep, r, prod2_rows, prodDag2_rows, q, third_rows, c2]
  rw [p _ (l 17) (l 18), p _ (l 21) (l 22)]
  simp only [prod2_rows, prodDag2_rows, third_rows, c3, c4]

theorem symanzik_block (L : Coords) (hL : ∀ rho, 2 ≤ L rho) (U : Coords → Dir → M3) (A : Coords) (mu nu : Dir) (hn : nu ≠ mu) :
    (symanzikLinksNu L A mu nu).map (fun l => U l.1 l.2) =
      let F := nb L A mu 1
      let Lp := nb L A mu (-1)
      let J := nb L A nu (-1)
      let I := nb L A nu (-2)
      let B := nb L A nu 1
      let C := nb L A nu 2
      let G := nb L J mu 1
      let K := nb L J mu (-1)
      let E := nb L B mu 1
      [U J nu, U J mu, U G nu, U A nu, U B mu, U F nu,
       U K nu, U K mu, U J mu, U G nu,
       U J nu, U I nu, U I mu, U (nb L I mu 1) nu, U G nu,
       U G mu, U (nb L J mu 2) nu,
       U Lp nu, U (nb L B mu (-1)) mu, U B mu, U F nu,
       U A nu, U B nu, U C mu, U E nu, U F nu,
       U E mu, U (nb L A mu 2) nu] := by
  have u1 := up_mod (L mu) (A mu) 1
  have u3 := up_mod (L mu) (A mu) 2
  have v1 := dw_mod (x := A mu) (show 1 ≤ L mu by have := hL mu; omega)
  have u2 := up_mod (L nu) (A nu) 1
  have u4 := up_mod (L nu) (A nu) 2
  have w4 := dw_mod (x := A nu) (hL nu)
  have w2 : ((((A nu + L nu - 2) % L nu + 1) % L nu : Nat) : Int) = ((A nu : Int) + (-1)) % L nu := by
    rw [up_mod, w4]
    push_cast
    rw [Int.emod_add_emod]
    congr 1
    ring
  rw [Nat.cast_one] at u1 u2 v1
  rw [Nat.cast_ofNat] at u3 u4 w4
  simp only [symanzikLinksNu, List.map_cons, List.map_nil, pt_nb_nu w2, pt_nb_nu w4, pt_nb_nu u2, pt_nb_nu u4, pt_nb hn u1 w2, pt_nb hn u1 w4,
    pt_nb hn u1 u2, pt_nb hn v1 w2, pt_nb hn v1 u2, pt_nb hn u3 w2, pt_nb_mu hn u1, pt_nb_mu hn v1, pt_nb_mu hn u3]

/-- What is lost by the truncated products -/
def lost (L : Coords) (U : Coords → Dir → M3) (A : Coords) (mu : Dir) : M3 :=
  ((Geo.perpDirs mu).map fun nu =>
    let J := nb L A nu (-1)
    let K := nb L J mu (-1)
    (U (nb L A mu (-1)) mu)ᴴ * (su3_build_third_row (trunc (U K nu) (U K mu) * U J mu) - (U K nu)ᴴ * U K mu * U J mu) * U (nb L J mu 1) nu).sum

theorem symanzik_general (L : Coords) (hL : ∀ rho, 2 ≤ L rho) (U : Coords → Dir → M3) (hU : ∀ c d, IsSU3 (U c d)) (A : Coords) (mu : Dir)
    (j : Nat → M3 × M3) (C1 : ℝ) :
    computeSymanzik j (linksOf U (symanzikLinks L A mu)) C1 =
      ((1 - 8 * C1 : ℝ) : ℂ) • squareStaples L U A mu + (C1 : ℂ) • (rectStaples L U A mu + lost L U A mu) := by
  have hup : ∀ nu : Dir, Function.update A mu ((A mu + 1) % L mu) = nb L A mu 1 ∧
      Function.update A mu ((A mu + L mu - 1) % L mu) = nb L A mu (-1) := by
    intro nu
    have u1 := up_mod (L mu) (A mu) 1
    have v1 := dw_mod (x := A mu) (show 1 ≤ L mu by have := hL mu; omega)
    rw [Nat.cast_one] at u1 v1
    unfold nb
    constructor <;> congr 1 <;> omega
  have key : ∀ n0 n1 n2 : Dir, Geo.perpDirs mu = [n0, n1, n2] → n0 ≠ mu → n1 ≠ mu → n2 ≠ mu →
      computeSymanzik j (linksOf U (symanzikLinks L A mu)) C1 =
        ((1 - 8 * C1 : ℝ) : ℂ) • squareStaples L U A mu + (C1 : ℂ) • (rectStaples L U A mu + lost L U A mu) := by
    intro n0 n1 n2 hp hn0 hn1 hn2
    have e : ∀ k, linksOf U (symanzikLinks L A mu) k = (((symanzikLinks L A mu).map (fun l => U l.1 l.2))[k]?).getD 0 := by
      intro k; unfold linksOf; rw [List.getElem?_map]
    have e2 : (symanzikLinks L A mu).map (fun l => U l.1 l.2) =
        (symanzikLinksNu L A mu n0).map (fun l => U l.1 l.2) ++ ((symanzikLinksNu L A mu n1).map (fun l => U l.1 l.2) ++
          ((symanzikLinksNu L A mu n2).map (fun l => U l.1 l.2) ++ [U (nb L A mu 1) mu, U (nb L A mu (-1)) mu])) := by
      unfold symanzikLinks
      rw [hp, (hup n0).1, (hup n0).2]
      simp
    rw [symanzik_block L hL U A mu n0 hn0, symanzik_block L hL U A mu n1 hn1, symanzik_block L hL U A mu n2 hn2] at e2
    simp only [List.cons_append, List.nil_append] at e2
    have hsu : ∀ k, k < 86 → IsSU3 (linksOf U (symanzikLinks L A mu) k) := by
      intro k hk
      have hlen : (symanzikLinks L A mu).length = 86 := by
        have := congrArg List.length e2
        rw [List.length_map] at this
        rw [this]
        simp only [List.length_cons, List.length_nil]
      have : linksOf U (symanzikLinks L A mu) k = U ((symanzikLinks L A mu)[k]'(by omega)).1 ((symanzikLinks L A mu)[k]'(by omega)).2 := by
        unfold linksOf
        rw [List.getElem?_eq_getElem (by omega)]
        rfl
      rw [this]
      exact hU _ _
    have l6 : ∀ k, linksOf U (symanzikLinks L A mu) k = _ := fun k => (e k).trans (by rw [e2])
    unfold computeSymanzik
    simp only [List.foldl_cons, List.foldl_nil]
    rw [symanzik_step _ _ (fun k => linksOf U (symanzikLinks L A mu) (28 * 0 + k)) (fun k hk => hsu _ (by omega)),
      symanzik_step _ _ (fun k => linksOf U (symanzikLinks L A mu) (28 * 1 + k)) (fun k hk => hsu _ (by omega)),
      symanzik_step _ _ (fun k => linksOf U (symanzikLinks L A mu) (28 * 2 + k)) (fun k hk => hsu _ (by omega))]
    simp only [l6, Nat.reduceMul, Nat.reduceAdd, List.getElem?_cons_zero, List.getElem?_cons_succ, Option.getD_some, zero_add, add_zero,
      squareStaples, rectStaples, lost, hp, List.map_cons, List.map_nil, List.sum_cons, List.sum_nil, get_C0]
    congr 1
    · congr 1
      simp only [Matrix.mul_assoc]
      abel
    · congr 1
      simp only [Matrix.add_mul, Matrix.mul_add, Matrix.sub_mul, Matrix.mul_sub, Matrix.mul_assoc]
      abel
  fin_cases mu
  · exact key 1 2 3 rfl (by decide) (by decide) (by decide)
  · exact key 0 2 3 rfl (by decide) (by decide) (by decide)
  · exact key 0 1 3 rfl (by decide) (by decide) (by decide)
  · exact key 0 1 2 rfl (by decide) (by decide) (by decide)

/-- The staples of the Symanzik sweeper are the combination of the square and of the rectangular ones, with coefficients
`1-8C1` and `C1`, if all the links are SU(3) matrices, and if the link in direction `nu` of the site behind in both directions
`mu` and `nu` has the last row `(0,0,*)`, for each `nu`.  Missing for the full statement: the last condition, without which the
result is wrong (`C70_violated_symanzik`). -/
theorem C70_symanzik_partial (L : Coords) (hL : ∀ rho, 2 ≤ L rho) (U : Coords → Dir → M3) (hU : ∀ c d, IsSU3 (U c d)) (A : Coords) (mu : Dir)
    (h0 : ∀ nu, nu ≠ mu → U (nb L (nb L A nu (-1)) mu (-1)) nu 2 0 = 0 ∧ U (nb L (nb L A nu (-1)) mu (-1)) nu 2 1 = 0)
    (j : Nat → M3 × M3) (C1 : ℝ) :
    computeSymanzik j (linksOf U (symanzikLinks L A mu)) C1 =
      ((1 - 8 * C1 : ℝ) : ℂ) • squareStaples L U A mu + (C1 : ℂ) • rectStaples L U A mu := by
  rw [symanzik_general L hL U hU A mu j C1]
  have hz : lost L U A mu = 0 := by
    unfold lost
    apply List.sum_eq_zero
    intro x hx
    obtain ⟨nu, hnu, rfl⟩ := List.mem_map.1 hx
    dsimp only
    have := h0 nu (perp_ne hnu)
    rw [trunc_build _ _ _ (su3_mul (su3_mul (su3_dag (hU _ _)) (hU _ _)) (hU _ _)) this.1 this.2, sub_self, Matrix.mul_zero, Matrix.zero_mul]
  rw [hz, add_zero]

/-- the hypotheses hold for the unit configuration -/
example : (∀ c d, IsSU3 ((fun _ _ => 1 : Coords → Dir → M3) c d)) ∧ (1 : M3) 2 0 = 0 ∧ (1 : M3) 2 1 = 0 :=
  ⟨fun _ _ => ⟨by simp, by simp⟩, by simp, by simp⟩

/-- Cyclic permutation of the colours -/
def cyc : M3 := !![0, 1, 0; 0, 0, 1; 1, 0, 0]

theorem cyc_su3 : IsSU3 cyc := by
  constructor
  · ext i k
    fin_cases i <;> fin_cases k <;> simp [cyc, Matrix.mul_apply, Fin.sum_univ_three, Matrix.conjTranspose_apply]
  · simp [cyc, Matrix.det_fin_three]

/-- All the links are the identity, but for one: a cyclic permutation of the colours -/
def oneCyc (K : Coords) (nu : Dir) : Coords → Dir → M3 := fun c d => if c = K ∧ d = nu then cyc else 1

/-- With all the links in SU(3), the staples computed by the Symanzik sweeper are wrong: on the lattice `4^4`, with all the
links equal to the identity apart from one, whatever the (non null) coefficient of the rectangles. -/
theorem C70_violated_symanzik (C1 : ℝ) (hC : C1 ≠ 0) (j : Nat → M3 × M3) :
    let L : Coords := fun _ => 4
    let U := oneCyc ![3, 3, 0, 0] 1
    (∀ c d, IsSU3 (U c d)) ∧ computeSymanzik j (linksOf U (symanzikLinks L (fun _ => 0) 0)) C1 ≠
      ((1 - 8 * C1 : ℝ) : ℂ) • squareStaples L U (fun _ => 0) 0 + (C1 : ℂ) • rectStaples L U (fun _ => 0) 0 := by
  intro L U
  have hU : ∀ c d, IsSU3 (U c d) := by
    intro c d
    show IsSU3 (if c = ![3, 3, 0, 0] ∧ d = 1 then cyc else 1)
    split_ifs
    · exact cyc_su3
    · exact ⟨by simp, by simp⟩
  refine ⟨hU, ?_⟩
  rw [symanzik_general L (fun _ => by show 2 ≤ 4; norm_num) U hU _ 0 j C1]
  intro h
  have h1 : (C1 : ℂ) • lost L U (fun _ => 0) 0 = 0 := by
    rw [smul_add, ← add_assoc] at h
    exact add_eq_left.1 h
  have h2 : lost L U (fun _ => 0) 0 = 0 := by
    rcases smul_eq_zero.1 h1 with h | h
    · exact absurd (by exact_mod_cast h) hC
    · exact h
  have k1 : nb L (nb L (fun _ => 0) 1 (-1)) 0 (-1) = ![3, 3, 0, 0] := by decide +kernel
  have k2 : nb L (nb L (fun _ => 0) 2 (-1)) 0 (-1) ≠ ![3, 3, 0, 0] := by decide +kernel
  have k3 : nb L (nb L (fun _ => 0) 3 (-1)) 0 (-1) ≠ ![3, 3, 0, 0] := by decide +kernel
  have k4 : nb L (nb L (fun _ => 0) 1 (-1)) 0 1 ≠ ![3, 3, 0, 0] := by decide +kernel
  have u0 : ∀ c, U c 0 = 1 := fun c => by show (if c = ![3, 3, 0, 0] ∧ (0 : Dir) = 1 then cyc else 1) = 1; simp
  have u2 : ∀ c, U c 2 = 1 := fun c => by show (if c = ![3, 3, 0, 0] ∧ (2 : Dir) = 1 then cyc else 1) = 1; simp
  have u3 : ∀ c, U c 3 = 1 := fun c => by show (if c = ![3, 3, 0, 0] ∧ (3 : Dir) = 1 then cyc else 1) = 1; simp
  have u1 : U ![3, 3, 0, 0] 1 = cyc := by show (if _ ∧ _ then cyc else 1) = cyc; simp
  have u1' : U (nb L (nb L (fun _ => 0) 1 (-1)) 0 1) 1 = 1 := by
    show (if _ ∧ _ then cyc else 1) = 1
    rw [if_neg (fun h => k4 h.1)]
  have ht : su3_build_third_row (trunc (1 : M3) 1) = 1 := by
    have := trunc_build 1 1 1 ⟨by simp, by simp⟩ (by simp) (by simp)
    simpa using this
  have h3 := congrFun (congrFun h2 0) 2
  have hp : Geo.perpDirs 0 = [1, 2, 3] := rfl
  simp only [lost, hp, List.map_cons, List.map_nil, List.sum_cons, List.sum_nil, k1, u0, u1, u1', u2, u3, Matrix.mul_one, conjTranspose_one,
    Matrix.one_mul, ht, sub_self, add_zero] at h3
  simp [trunc, cyc, su3_build_third_row, Matrix.conjTranspose_apply] at h3

/-! ### initialisation -/

theorem addConfLink_ne (g : Geo) (rank : Nat) (gl : A2A.ScatterList) (l : Coords × Dir)
    (h : gl ≠ [] ∨ (getLoclxAndRankOfCoords g l.1).2 ≠ rank) : (addConfLink g rank gl l).1 ≠ [] := by
  unfold addConfLink
  by_cases hr : (getLoclxAndRankOfCoords g l.1).2 = rank
  · simp only [if_pos hr]
    rcases h with h | h
    · exact h
    · exact absurd hr h
  · simp only [if_neg hr]
    split
    · next e he =>
      intro h0
      have h0' : gl = [] := h0
      rw [h0'] at he
      simp at he
    · simp

theorem addLinks_ne (g : Geo) (rank : Nat) (ls : List (Coords × Dir)) : ∀ (a : A2A.ScatterList × List Nat),
    (a.1 ≠ [] ∨ ∃ l ∈ ls, (getLoclxAndRankOfCoords g l.1).2 ≠ rank) →
    (ls.foldl (fun a l => ((addConfLink g rank a.1 l).1, a.2 ++ [(addConfLink g rank a.1 l).2])) a).1 ≠ [] := by
  induction ls with
  | nil =>
    intro a h
    rcases h with h | ⟨l, hl, _⟩
    · exact h
    · simp at hl
  | cons l ls ih =>
    intro a h
    rw [List.foldl_cons]
    apply ih
    rcases h with h | ⟨k, hk, hr⟩
    · exact Or.inl (addConfLink_ne g rank a.1 l (Or.inl h))
    · rcases List.mem_cons.1 hk with rfl | hk
      · exact Or.inl (addConfLink_ne g rank a.1 k (Or.inr hr))
      · exact Or.inr ⟨k, hk, hr⟩

/-- the list of the first box is not empty, if every link requires a link considered as belonging to another rank -/
theorem boxGather_ne (g : Geo) (rank gpar : Nat) (links : Coords → Dir → List (Coords × Dir)) (s : Geom)
    (hl : ∀ A d, ∃ l ∈ links A d, (getLoclxAndRankOfCoords g l.1).2 ≠ rank) (h0 : 0 < gpar) (hn : 0 < s.nsite (slot gpar (0, 0, 0))) :
    boxGather g rank gpar links s 0 ≠ [] := by
  have inner : ∀ (dir : Dir) (l : List Nat) (base : Nat) (gl : A2A.ScatterList), (gl ≠ [] ∨ l ≠ []) →
      l.foldl (fun gl k =>
        (addLinks g rank gl (links ((glbCoordOfLoclx g (coordOfLx rank g.R) (s.ivol.getD (base + k) 0)).getD (fun _ => 0)) dir)).1) gl ≠ [] := by
    intro dir l base
    induction l with
    | nil => intro gl h; simpa using h
    | cons k l ih =>
      intro gl _
      rw [List.foldl_cons]
      apply ih
      left
      exact addLinks_ne g rank _ (gl, []) (Or.inr (hl _ dir))
  have outer : ∀ (l : List (Dir × Nat)) (a : Nat × A2A.ScatterList),
      (a.2 ≠ [] ∨ ∃ dp ∈ l, 0 < s.nsite (slot gpar (0, dp.1, dp.2))) →
      (l.foldl (fun (a : Nat × A2A.ScatterList) dp =>
        let n := s.nsite (slot gpar (0, dp.1, dp.2))
        (a.1 + n, (List.range n).foldl (fun gl k =>
          let A := (glbCoordOfLoclx g (coordOfLx rank g.R) (s.ivol.getD (a.1 + k) 0)).getD (fun _ => 0)
          (addLinks g rank gl (links A dp.1)).1) a.2)) a).2 ≠ [] := by
    intro l
    induction l with
    | nil =>
      intro a h
      rcases h with h | ⟨dp, hm, _⟩
      · exact h
      · simp at hm
    | cons dp l ih =>
      intro a h
      rw [List.foldl_cons]
      apply ih
      rcases h with h | ⟨dq, hm, hq⟩
      · exact Or.inl (inner dp.1 _ a.1 a.2 (Or.inl h))
      · rcases List.mem_cons.1 hm with rfl | hm
        · refine Or.inl (inner dq.1 _ a.1 a.2 (Or.inr ?_))
          intro hr
          have := congrArg List.length hr
          rw [List.length_range] at this
          simp only [List.length_nil] at this
          omega
        · exact Or.inr ⟨dq, hm, hq⟩
  unfold boxGather
  apply outer
  refine Or.inr ⟨(0, 0), ?_, hn⟩
  exact List.mem_flatMap.2 ⟨0, by decide, List.mem_map.2 ⟨0, List.mem_range.2 h0, rfl⟩⟩

theorem countTo_one (sl : A2A.ScatterList) : A2A.countTo 1 sl 0 = sl.length := by
  have : ∀ (sl : A2A.ScatterList) (f : Nat → Nat),
      sl.foldl (fun nper e => Function.update nper (e.2 % 1) (nper (e.2 % 1) + 1)) f 0 = f 0 + sl.length := by
    intro sl
    induction sl with
    | nil => intro f; simp
    | cons e sl ih =>
      intro f
      rw [List.foldl_cons, ih]
      simp only [Nat.mod_one, Function.update_self, List.length_cons]
      omega
  have h := this sl (fun _ => 0)
  rw [Nat.zero_add] at h
  exact h

theorem setupAsk_nelIn (gl : Nat → A2A.ScatterList) (junk : Nat → Nat) (c : A2A.Comm) (h : A2A.setupAsk 1 gl junk 0 = some c) :
    c.nelIn = (gl 0).length := by
  unfold A2A.setupAsk at h
  simp only [Option.bind_eq_some_iff] at h
  obtain ⟨src, _, u, _, h⟩ := h
  have := congrArg A2A.Comm.nelIn (Option.some.inj h)
  rw [← this]
  show ((List.range 1).map (A2A.countTo 1 (gl 0))).sum = _
  simp [countTo_one]

theorem fold_max (f : Nat → Option A2A.Comm) (l : List Nat) : ∀ a b, l.foldlM (fun (a : Nat × (Nat → A2A.Comm)) ibox =>
    (f ibox).map (fun c => (max a.1 c.nelIn, Function.update a.2 ibox c))) a = some b → a.1 ≤ b.1 ∧
      ∀ ibox ∈ l, ∃ c, f ibox = some c ∧ c.nelIn ≤ b.1 := by
  induction l with
  | nil => intro a b h; simp at h; subst h; simp
  | cons i l ih =>
    intro a b h
    rw [List.foldlM_cons] at h
    cases hc : f i with
    | none => rw [hc] at h; simp at h
    | some c =>
      rw [hc] at h
      obtain ⟨h1, h2⟩ := ih _ b h
      have h1' : max a.1 c.nelIn ≤ b.1 := h1
      refine ⟨by omega, ?_⟩
      intro k hk
      rcases List.mem_cons.1 hk with rfl | hk
      · exact ⟨c, hc, by omega⟩
      · exact h2 k hk

theorem one_rank_vols (g : Geo) (hR : ∀ mu, g.R mu = 1) : g.bordVol = 0 ∧ g.edgeVol = 0 ∧ g.nranks = 1 := by
  have hp : ∀ mu, g.isPar mu = false := fun mu => by simp [Geo.isPar, hR]
  refine ⟨?_, ?_, ?_⟩
  · simp [Geo.bordVol, Geo.bordVolh, Geo.bordDirVol, hp, dirs]
  · simp [Geo.edgeVol, Geo.edgeDirVol, hp, Geo.edges]
  · simp [Geo.nranks, volOfLx, dirs, hR]

theorem init_none (g : Geo) (hR : ∀ mu, g.R mu = 1) (gpar : Nat) (links : Coords → Dir → List (Coords × Dir)) (s : Geom) (junk : Nat → Nat)
    (hl : ∀ A d, ∃ l ∈ links A d, (getLoclxAndRankOfCoords g l.1).2 ≠ 0) (h0 : 0 < gpar) (hn : 0 < s.nsite (slot gpar (0, 0, 0))) :
    initStaples g gpar links s junk 0 = none := by
  obtain ⟨v1, v2, v3⟩ := one_rank_vols g hR
  unfold initStaples
  rw [v1, v2, v3]
  cases hf : ((List.range 16).foldlM (fun (a : Nat × (Nat → A2A.Comm)) ibox =>
      (A2A.setupAsk 1 (fun r => boxGather g r gpar links s ibox) junk 0).map
        (fun c => (max a.1 c.nelIn, Function.update a.2 ibox c))) (0, fun _ => A2A.part1 0 (fun _ => 0) (fun _ => 0))) with
  | none => rfl
  | some b =>
    obtain ⟨_, h2⟩ := fold_max _ _ _ b hf
    obtain ⟨c, hc, hle⟩ := h2 0 (by simp)
    have hlen := setupAsk_nelIn _ junk c hc
    have hne := boxGather_ne g 0 gpar links s hl h0 hn
    have : 0 < (boxGather g 0 gpar links s 0).length := List.length_pos_iff.2 hne
    show (if 0 + 0 < b.1 then none else some b.2) = none
    rw [if_pos (by omega)]

theorem lx_ne_zero (g : Geo) (ok : g.Ok) (c : Coords) (mu : Dir) (h : c mu % g.loc mu ≠ 0) : (getLoclxAndRankOfCoords g c).2 ≠ 0 := by
  have e : (fun mu => c mu - c mu / g.loc mu * g.loc mu) = fun mu => c mu % g.loc mu := by
    funext nu
    have := Nat.div_add_mod' (c nu) (g.loc nu)
    omega
  show lxOfCoord (fun mu => c mu - c mu / g.loc mu * g.loc mu) g.loc ≠ 0
  rw [e]
  intro h0
  have hz : lxOfCoord (fun _ => 0) g.loc = 0 := by simp [lxOfCoord, mix, dirs]
  have := lxOfCoord_inj (x := fun mu => c mu % g.loc mu) (y := fun _ => 0) (s := g.loc) (fun d => Nat.mod_lt _ (loc_pos ok d))
    (fun d => loc_pos ok d) (h0.trans hz.symm)
  exact h (congrFun this mu)

theorem first_set (g : Geo) (ok : g.Ok) (h2 : ∀ mu, 2 ≤ g.loc mu) (gpar : Nat) (parComp : Coords → Dir → Int)
    (hp : ∀ x d, 0 ≤ parComp x d ∧ parComp x d < gpar) (hz : parComp (fun _ => 0) 0 = 0) (n0 : Nat → Nat) (s : Geom)
    (hs : initGeom g gpar parComp n0 = some s) : 0 < gpar ∧ 0 < s.nsite (slot gpar (0, 0, 0)) := by
  have hg : 0 < gpar := by have := hp (fun _ => 0) 0; omega
  obtain ⟨s', e, _, hn⟩ := initGeom_spec g gpar parComp hp n0
  rw [hs] at e
  obtain rfl := Option.some.inj e
  refine ⟨hg, ?_⟩
  rw [hn (0, 0, 0) (mem_triples.2 ⟨by norm_num, hg⟩)]
  have hc0 : coordOfLx 0 g.loc = fun _ => 0 := by
    have := coordOfLx_lxOfCoord (x := fun _ => 0) (s := g.loc) (fun d => loc_pos ok d)
    have hz : lxOfCoord (fun _ => 0) g.loc = 0 := by simp [lxOfCoord, mix, dirs]
    rwa [hz] at this
  have hv : 0 < g.locVol := by
    rw [locVol_eq ok]
    have := lxOfCoord_lt (x := fun _ => 0) (s := g.loc) (fun d => loc_pos ok d)
    omega
  have hm : 0 ∈ block g parComp (0, 0, 0) := by
    refine (mem_block g ok h2 parComp (0, 0, 0) (by norm_num) 0).2 ⟨hv, ?_, ?_⟩
    · rw [hc0]
      funext mu
      rw [boxCoord_zero]
      have := h2 mu
      show (if 0 < g.loc mu / 2 then 0 else 1) = 0
      rw [if_pos (by omega)]
    · rw [hc0]; exact hz
  exact List.length_pos_of_mem hm

/-- On one rank the initialisation of the sweepers always stops the program, whatever the lattice, although no communication is
needed at all: the local index of the site and the rank are exchanged when a link is looked for, so that almost all the links
appear to belong to other ranks, and the cache allowed (the size of the halo) is empty. -/
theorem C70_violated_init (g : Geo) (ok : g.Ok) (hR : ∀ mu, g.R mu = 1) (n0 junk : Nat → Nat) :
    ((∀ mu, 2 ≤ g.loc mu) → ∀ s, initGeom g 2 Wilson_par n0 = some s → initStaples g 2 (wilsonLinks g.L) s junk 0 = none) ∧
    ((∀ mu, 4 ≤ g.loc mu) → ∀ s, initGeom g 4 Symanzik_par n0 = some s → initStaples g 4 (symanzikLinks g.L) s junk 0 = none) := by
  have hL : ∀ mu, g.loc mu = g.L mu := fun mu => by have := L_eq ok mu; rw [hR mu, one_mul] at this; exact this.symm
  have wrap : ∀ (A : Coords) (mu nu : Dir) (b : Nat), nu ≠ mu → A nu % g.L nu = 0 → b % g.L nu ≠ 0 →
      pt A mu nu (A mu) b nu % g.loc nu ≠ 0 := by
    intro A mu nu b hn _ hb
    rw [hL]
    simpa [pt] using hb
  constructor
  · intro h2 s hs
    obtain ⟨hg, hn⟩ := first_set g ok h2 2 Wilson_par wilson_par_range (by decide) n0 s hs
    refine init_none g hR 2 _ s junk ?_ hg hn
    intro A mu
    obtain ⟨nu, hnu⟩ : ∃ nu, nu ∈ Geo.perpDirs mu := by revert mu; decide
    by_cases hA : A nu % g.L nu = 0
    · refine ⟨(pt A mu nu (A mu) ((A nu + g.L nu - 1) % g.L nu), nu), ?_, ?_⟩
      · exact List.mem_flatMap.2 ⟨nu, hnu, by simp [wilsonLinksNu]⟩
      · refine lx_ne_zero g ok _ nu (wrap A mu nu _ (perp_ne hnu) hA ?_)
        have h2' := h2 nu
        rw [hL] at h2'
        obtain ⟨q, hq⟩ := Nat.dvd_of_mod_eq_zero hA
        rw [hq, show g.L nu * q + g.L nu - 1 = (g.L nu - 1) + g.L nu * q by omega, Nat.add_mul_mod_self_left, Nat.mod_mod,
          Nat.mod_eq_of_lt (by omega)]
        omega
    · refine ⟨(A, nu), List.mem_flatMap.2 ⟨nu, hnu, by simp [wilsonLinksNu]⟩, lx_ne_zero g ok _ nu ?_⟩
      rw [hL]; exact hA
  · intro h4 s hs
    have h2 : ∀ mu, 2 ≤ g.loc mu := fun mu => by have := h4 mu; omega
    obtain ⟨hg, hn⟩ := first_set g ok h2 4 Symanzik_par symanzik_par_range (by decide) n0 s hs
    refine init_none g hR 4 _ s junk ?_ hg hn
    intro A mu
    obtain ⟨nu, hnu⟩ : ∃ nu, nu ∈ Geo.perpDirs mu := by revert mu; decide
    by_cases hA : A nu % g.L nu = 0
    · refine ⟨(pt A mu nu (A mu) (((A nu + g.L nu - 2) % g.L nu + 1) % g.L nu), nu), ?_, ?_⟩
      · exact List.mem_append_left _ (List.mem_flatMap.2 ⟨nu, hnu, by simp [symanzikLinksNu]⟩)
      · refine lx_ne_zero g ok _ nu (wrap A mu nu _ (perp_ne hnu) hA ?_)
        have h2' := h4 nu
        rw [hL] at h2'
        obtain ⟨q, hq⟩ := Nat.dvd_of_mod_eq_zero hA
        rw [hq, show g.L nu * q + g.L nu - 2 = (g.L nu - 2) + g.L nu * q by omega, Nat.add_mul_mod_self_left, Nat.mod_mod,
          Nat.mod_eq_of_lt (show g.L nu - 2 < g.L nu by omega), Nat.mod_eq_of_lt (by omega)]
        omega
    · refine ⟨(A, nu), List.mem_append_left _ (List.mem_flatMap.2 ⟨nu, hnu, by simp [symanzikLinksNu]⟩), lx_ne_zero g ok _ nu ?_⟩
      rw [hL]; exact hA

/-- a case: the lattice `8x4x4x6` on one rank -/
example : (⟨![8, 4, 4, 6], ![1, 1, 1, 1]⟩ : Geo).Ok ∧ (∀ mu, (⟨![8, 4, 4, 6], ![1, 1, 1, 1]⟩ : Geo).R mu = 1) ∧
    (∀ mu, 4 ≤ (⟨![8, 4, 4, 6], ![1, 1, 1, 1]⟩ : Geo).loc mu) := by decide

/-- The sweeper asked for the tree level Symanzik action comes with the coefficient of the Iwasaki action; the other two are right. -/
theorem C70_violated_tlsym : get_sweeper .tlsym ≠ some (4, -1 / 12) ∧ get_sweeper .tlsym = get_sweeper .iwasaki ∧
    get_sweeper .iwasaki = some (4, -331 / 1000) ∧ get_sweeper .wilson = some (2, 0) ∧ get_sweeper .unspec = none := by
  refine ⟨?_, rfl, ?_, rfl, rfl⟩
  · intro h
    have := congrArg Prod.snd (Option.some.inj h)
    norm_num at this
  · unfold get_sweeper
    norm_num

end Nissa.Sweep
