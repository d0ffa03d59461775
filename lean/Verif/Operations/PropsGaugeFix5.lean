import Verif.Operations.PropsGaugeFix4
import Verif.Smearing.PropsStout

/-! # C60: what a sweep of overrelaxation does to the configuration; examples -/

set_option linter.all false

namespace Nissa.GFix
open Nissa.Lx Nissa.Sten Nissa.Gauge Nissa.Su3f Nissa.Paths Nissa.GForce Matrix

noncomputable section

/-- a field with given values on the lattice -/
def ofGlob {V : Type} (g : Geo) (U : Coords → V) : Fld V := fun rk i => U (coordsOf g rk i)

theorem glob_ofGlob {V : Type} {g : Geo} (ok : g.Ok) (U : Coords → V) {x : Coords} (hx : x ∈ box g.L) : glob g (ofGlob g U) x = U x := by
  obtain ⟨rk, i, hrk, hi, hr, hc, hF⟩ := lxSite ok hx
  rw [hF]
  unfold ofGlob coordsOf
  rw [hc]; rfl

section
variable (E : Env) (ok : E.g.Ok) (eo : EoOk E.g)
include ok eo

theorem parOf_eq {rk i : Nat} {x : Coords} (hc : glbCoordOfLoclx E.g (coordOfLx rk E.g.R) i = some x) : parOf E.g rk i = coordParity x := by
  unfold parOf
  rw [parity_of_coord eo _ hc]; rfl

/-- where the derivative is Hermitian with positive diagonal, no transformation is found and the links of the other parity are moved -/
theorem half_herm (start : Nat) (prob : ℝ) (iter p : Nat) (s : Fld Quad × Fld M3)
    (h : ∀ x ∈ box E.g.L, coordParity x = p → (∑ mu ∈ gdirs start, (glob E.g s.1 x mu + (glob E.g s.1 (tshift E.g x mu (-1)) mu)ᴴ))ᴴ =
        ∑ mu ∈ gdirs start, (glob E.g s.1 x mu + (glob E.g s.1 (tshift E.g x mu (-1)) mu)ᴴ) ∧
      ∀ i, 0 < ((∑ mu ∈ gdirs start, (glob E.g s.1 x mu + (glob E.g s.1 (tshift E.g x mu (-1)) mu)ᴴ)) i i).re) :
    ∃ s', overrelaxHalf E start prob iter p s = some s' ∧ ∀ x ∈ box E.g.L, glob E.g s'.2 x = glob E.g s.2 x ∧
      ∀ mu, glob E.g s'.1 x mu = if coordParity x = p then glob E.g s.1 x mu else glob E.g s.1 (tshift E.g x mu 1) mu := by
  have site : ∀ rk i x, IsRank E.g (coordOfLx rk E.g.R) → i < E.g.locVol → glbCoordOfLoclx E.g (coordOfLx rk E.g.R) i = some x → x ∈ box E.g.L →
      glob E.g s.1 x = s.1 rk i → coordParity x = p → overrelaxSite E start prob iter s.1 rk i = some 1 := by
    intro rk i x hr hi hc hx hs hp
    obtain ⟨a1, a2⟩ := h x hx hp
    unfold overrelaxSite
    have e : functionalDer start (s.1 rk i) (dwOf E s.1 rk i) = ∑ mu ∈ gdirs start, (glob E.g s.1 x mu + (glob E.g s.1 (tshift E.g x mu (-1)) mu)ᴴ) := by
      rw [functionalDer_eq]
      refine Finset.sum_congr rfl fun mu _ => ?_
      unfold dwOf
      rw [mem_dw ok E.jq E.ji s.1 hr hi hc mu, hs]
    simp only
    rw [e, a1]
    have k := Nissa.LSm.C48_ape_proj_hermitian E.reuni a1 a2
    unfold Nissa.LSm.apeProj at k
    rw [k]
    simp
  have hsome : ∃ G, loopOpt E.g (fun rk ivol => if parOf E.g rk ivol = p then overrelaxSite E start prob iter s.1 rk ivol else some 1) = some G := by
    refine loopOpt_some fun rk hrk i hi => ?_
    obtain ⟨c, ⟨h1, h2⟩, -⟩ := C02_bijective E.g ok rk i hrk hi
    have hx := mem_box.2 h1
    obtain ⟨rk', i', hrk', hi', hr, hc, hF⟩ := lxSite ok hx
    have : rk' = rk ∧ i' = i := by
      have e1 := hF (fun a b => (a, b))
      unfold glob at e1
      rw [h2] at e1
      have := Prod.mk.inj e1
      exact ⟨this.1.symm, this.2.symm⟩
    obtain ⟨rfl, rfl⟩ := this
    split
    · rename_i hp
      rw [parOf_eq E ok eo hc] at hp
      rw [site _ _ c hr hi hc hx (hF _) hp]; rfl
    · rfl
  obtain ⟨G, hG⟩ := hsome
  have hG1 : ∀ x ∈ box E.g.L, glob E.g G x = 1 := by
    intro x hx
    have h1 := loopOpt_glob ok hG hx
    obtain ⟨rk, i, hrk, hi, hr, hc, hF⟩ := lxSite ok hx
    rw [hF, hF] at h1
    rw [hF]
    beta_reduce at h1
    split at h1
    · rename_i hp
      rw [parOf_eq E ok eo hc] at hp
      rw [site _ _ x hr hi hc hx (hF _) hp] at h1
      exact (Option.some.inj h1).symm
    · exact (Option.some.inj h1).symm
  refine ⟨_, by unfold overrelaxHalf; rw [hG]; rfl, fun x hx => ?_⟩
  obtain ⟨rk, i, hrk, hi, hr, hc, hF⟩ := lxSite ok hx
  have g1 : G rk i = 1 := by rw [← hF G]; exact hG1 x hx
  constructor
  · rw [hF, hF]
    show (if parOf E.g rk i = p then G rk i * s.2 rk i else s.2 rk i) = s.2 rk i
    rw [g1, Matrix.one_mul, ite_self]
  · intro mu
    rw [hF]
    show (if parOf E.g rk i ≠ p then mem E.g E.jq (fun rk ivol mu => G rk ivol * s.1 rk ivol mu * (G rk ivol)ᴴ) (coordOfLx rk E.g.R)
      (upT E.g (coordOfLx rk E.g.R) E.ji i mu) mu else s.1 rk i mu) = _
    rw [parOf_eq E ok eo hc, mem_up ok E.jq E.ji _ hr hi hc mu, hF s.1]
    by_cases hp : coordParity x = p
    · rw [if_pos hp, if_neg (by simpa using hp)]
    · rw [if_neg hp, if_pos hp]
      have hy := tshift_mem_box ok hx mu 1
      have g2 := hG1 _ hy
      obtain ⟨rk', i', hrk', hi', hr', hc', hF'⟩ := lxSite ok hy
      rw [hF'] at g2 ⊢
      rw [hF', g2]
      simp

/-- the matrix `diag(-1,-1,1)` -/
def twist : M3 := Matrix.diagonal ![-1, -1, 1]

omit ok eo in
theorem twist_su3 : IsSU3 twist := by
  constructor
  · unfold twist
    rw [Matrix.diagonal_conjTranspose, Matrix.diagonal_mul_diagonal, ← Matrix.diagonal_one]
    congr 1
    funext i; fin_cases i <;> simp
  · unfold twist
    rw [Matrix.det_diagonal, Fin.prod_univ_three]; simp

/-- the configuration of identity links but one -/
def oneTwist (x0 : Coords) : Coords → Quad := fun x mu => if x = x0 ∧ mu = 3 then twist else 1

omit ok eo in
theorem oneTwist_su3 (x0 x : Coords) (mu : Dir) : IsSU3 (oneTwist x0 x mu) := by
  unfold oneTwist
  split
  · exact twist_su3
  · exact su3_one

/-- an odd site -/
def x1 : Coords := ![1, 0, 0, 0]

omit eo in
theorem two_le (mu : Dir) : 2 ≤ E.g.L mu := by
  have h1 := ok.loc_ge mu
  have h2 := L_eq ok mu
  have h3 : 0 < E.g.R mu := by
    rcases Nat.eq_zero_or_pos (E.g.R mu) with h | h
    · have := L_pos ok mu
      rw [h2, h] at this; simp at this
    · exact h
  rw [h2]
  nlinarith

omit eo in
theorem x1_mem : x1 ∈ box E.g.L := by
  rw [mem_box]
  intro mu
  have := two_le E ok mu
  unfold x1
  fin_cases mu <;> simp at this ⊢ <;> omega

omit ok eo in
theorem oneTwist_herm (x0 x : Coords) (mu : Dir) : (oneTwist x0 x mu)ᴴ = oneTwist x0 x mu := by
  unfold oneTwist
  split
  · unfold twist
    rw [Matrix.diagonal_conjTranspose]
    congr 1
    funext i; fin_cases i <;> simp
  · simp

omit ok eo in
theorem oneTwist_diag (x0 x : Coords) (mu : Dir) (i : Fin 3) : -1 ≤ (oneTwist x0 x mu i i).re ∧ (mu ≠ 3 → (oneTwist x0 x mu i i).re = 1) := by
  unfold oneTwist
  split
  · rename_i h
    refine ⟨?_, fun h' => absurd h.2 h'⟩
    unfold twist
    rw [Matrix.diagonal_apply_eq]
    fin_cases i <;> simp
  · simp

omit ok eo in
theorem der_pos (V : Coords → Quad) (hh : ∀ x mu, (V x mu)ᴴ = V x mu) (hd : ∀ x mu i, -1 ≤ (V x mu i i).re ∧ (mu ≠ 3 → (V x mu i i).re = 1)) (g : Geo) (start : Nat) (hs : start ≤ 1) (x : Coords) :
    (∑ mu ∈ gdirs start, (V x mu + (V (tshift g x mu (-1)) mu)ᴴ))ᴴ = ∑ mu ∈ gdirs start, (V x mu + (V (tshift g x mu (-1)) mu)ᴴ) ∧
      ∀ i, 0 < ((∑ mu ∈ gdirs start, (V x mu + (V (tshift g x mu (-1)) mu)ᴴ)) i i).re := by
  constructor
  · rw [Matrix.conjTranspose_sum]
    refine Finset.sum_congr rfl fun mu _ => ?_
    rw [Matrix.conjTranspose_add, hh, hh, hh]
  · intro i
    rw [Matrix.sum_apply, Complex.re_sum]
    have e : ∀ mu, ((V x mu + (V (tshift g x mu (-1)) mu)ᴴ) i i).re = (V x mu i i).re + (V (tshift g x mu (-1)) mu i i).re := by
      intro mu; rw [hh, Matrix.add_apply, Complex.add_re]
    simp only [e]
    have a := fun mu => hd x mu i
    have b := fun mu => hd (tshift g x mu (-1)) mu i
    have hg : gdirs start = {0, 1, 2, 3} ∨ gdirs start = {1, 2, 3} := by
      unfold gdirs
      interval_cases start
      · left; decide
      · right; decide
    have h3a := (a 3).1
    have h3b := (b 3).1
    rcases hg with h | h <;> rw [h]
    · rw [Finset.sum_insert (by decide), Finset.sum_insert (by decide), Finset.sum_insert (by decide), Finset.sum_singleton,
        (a 0).2 (by decide), (a 1).2 (by decide), (a 2).2 (by decide), (b 0).2 (by decide), (b 1).2 (by decide), (b 2).2 (by decide)]
      linarith
    · rw [Finset.sum_insert (by decide), Finset.sum_insert (by decide), Finset.sum_singleton,
        (a 1).2 (by decide), (a 2).2 (by decide), (b 1).2 (by decide), (b 2).2 (by decide)]
      linarith

omit ok eo in
theorem sum_congr_loc (g : Geo) (ok : g.Ok) {U V : Coords → Quad} (h : ∀ x ∈ box g.L, U x = V x) (start : Nat) {x : Coords} (hx : x ∈ box g.L) :
    ∑ mu ∈ gdirs start, (U x mu + (U (tshift g x mu (-1)) mu)ᴴ) = ∑ mu ∈ gdirs start, (V x mu + (V (tshift g x mu (-1)) mu)ᴴ) := by
  refine Finset.sum_congr rfl fun mu _ => ?_
  rw [h x hx, h _ (tshift_mem_box ok hx mu (-1))]

omit eo in
theorem path_congr (U V : Coords → Quad) (h : ∀ x ∈ box E.g.L, U x = V x) (l : List Move) : ∀ x, x ∈ box E.g.L → pathProd E.g U x l = pathProd E.g V x l := by
  induction l with
  | nil => intro x _; rfl
  | cons m l ih =>
    intro x hx
    obtain ⟨mu, d⟩ := m
    cases d
    · simp only [pathProd]; rw [h _ (tshift_mem_box ok hx mu (-1)), ih _ (tshift_mem_box ok hx mu (-1))]
    · simp only [pathProd]; rw [h _ hx, ih _ (tshift_mem_box ok hx mu 1)]

omit eo in
theorem transformed_congr (G : Coords → M3) {U V : Coords → Quad} (h : ∀ x ∈ box E.g.L, U x = V x) {x : Coords} (hx : x ∈ box E.g.L) :
    transformed E.g G U x = transformed E.g G V x := by
  funext mu
  unfold transformed
  rw [h x hx]

omit eo in
/-- the configuration with a link different from the identity is not a transform of that of identity links -/
theorem twist_not_transform (G : Coords → M3) (hG : ∀ x ∈ box E.g.L, IsSU3 (G x)) (hc : ∀ x ∈ box E.g.L, (fun _ => 1) = transformed E.g G (oneTwist x1) x) : False := by
  have hx := x1_mem E ok
  have comm : ∀ (x : Coords) (mu nu : Dir) (d d' : Int), mu ≠ nu → tshift E.g (tshift E.g x mu d) nu d' = tshift E.g (tshift E.g x nu d') mu d := by
    intro x mu nu d d' hne
    unfold tshift
    rw [Function.update_of_ne hne.symm, Function.update_of_ne hne, Function.update_comm hne.symm]
  have b3 := tshift_back ok (tshift_mem_box ok hx 2 1) 3 1 (.inl rfl)
  have b2 := tshift_back ok hx 2 1 (.inl rfl)
  have e1 : tshift E.g (tshift E.g (tshift E.g x1 3 1) 2 1) 3 (-1) = tshift E.g x1 2 1 := by
    rw [comm x1 3 2 1 1 (by decide)]; exact b3
  have hend : pathEnd E.g x1 [(3, true), (2, true), (3, false), (2, false)] = x1 := by
    simp only [pathEnd, if_true, Bool.false_eq_true, if_false]
    rw [e1, b2]
  have c := C32_closed_path E.g ok G (fun y hy => mul_eq_one_comm.1 (hG y hy).1) (oneTwist x1) _ x1 hx hend
  rw [← path_congr E ok (fun _ _ => 1) _ hc _ x1 hx] at c
  have hne : tshift E.g x1 2 1 ≠ x1 := by
    intro h
    have := congrFun h 2
    unfold tshift at this
    simp [x1] at this
    have h2 := two_le E ok 2
    rw [Int.emod_eq_of_lt (by omega) (by omega)] at this
    omega
  have l1 : pathProd E.g (fun _ _ => 1) x1 [(3, true), (2, true), (3, false), (2, false)] = 1 := by
    simp [pathProd]
  have l2 : pathProd E.g (oneTwist x1) x1 [(3, true), (2, true), (3, false), (2, false)] = twist := by
    simp only [pathProd]
    rw [e1, b2]
    have t3 : oneTwist x1 x1 3 = twist := if_pos ⟨rfl, rfl⟩
    have t2 : ∀ x, oneTwist x1 x 2 = 1 := fun x => if_neg (by rintro ⟨-, h⟩; exact absurd h (by decide))
    have t1 : oneTwist x1 (tshift E.g x1 2 1) 3 = 1 := if_neg (by rintro ⟨h, -⟩; exact hne h)
    rw [t3, t2, t2, t1]
    simp
  rw [l1, l2] at c
  unfold twist at c
  rw [Matrix.trace_diagonal, Fin.sum_univ_three, Matrix.trace_one] at c
  have := congrArg Complex.re c
  simp at this
  norm_num at this

/-- C60, violated: a sweep of the overrelaxation does not transform the configuration it works on: on any grid, in both gauges, there is a
configuration of SU(3) links for which a sweep returns a transformation equal to the identity and a configuration with another plaquette,
so that it is not obtained from the initial one by any SU(3) transformation. -/
theorem C60_violated_overrelax (start : Nat) (hs : start ≤ 1) (prob : ℝ) (iter : Nat) :
    ∃ (conf : Fld Quad) (s' : Fld Quad × Fld M3), (∀ x ∈ box E.g.L, ∀ mu, IsSU3 (glob E.g conf x mu)) ∧
      overrelax E start prob iter (conf, fun _ _ => 1) = some s' ∧ (∀ x ∈ box E.g.L, glob E.g s'.2 x = 1) ∧
      ∀ G : Coords → M3, (∀ x ∈ box E.g.L, IsSU3 (G x)) → ¬ ∀ x ∈ box E.g.L, glob E.g s'.1 x = transformed E.g G (glob E.g conf) x := by
  have hglob : ∀ x ∈ box E.g.L, glob E.g (ofGlob E.g (oneTwist x1)) x = oneTwist x1 x := fun x hx => glob_ofGlob ok _ hx
  have hpx : coordParity x1 = 1 := by decide
  obtain ⟨s1, h1, k1⟩ := half_herm E ok eo start prob iter 0 (ofGlob E.g (oneTwist x1), fun _ _ => 1) (by
    intro x hx hp
    simp only
    rw [sum_congr_loc E.g ok hglob start hx]
    exact der_pos _ (oneTwist_herm x1) (oneTwist_diag x1) E.g start hs x)
  -- now all the links are the identity
  have u1 : ∀ x ∈ box E.g.L, glob E.g s1.1 x = fun _ => 1 := by
    intro x hx
    funext mu
    rw [(k1 x hx).2 mu]
    simp only
    have e0 : ∀ y ∈ box E.g.L, coordParity y = 0 → oneTwist x1 y mu = 1 := by
      intro y hy hp
      unfold oneTwist
      rw [if_neg]
      rintro ⟨rfl, -⟩
      omega
    split
    · rename_i hp
      rw [hglob x hx, e0 x hx hp]
    · rename_i hp
      have hy := tshift_mem_box ok hx mu 1
      rw [hglob _ hy, e0 _ hy]
      rw [parity_tshift ok eo x mu (.inl rfl)]
      have : coordParity x < 2 := by unfold coordParity; exact Nat.mod_lt _ (by norm_num)
      omega
  obtain ⟨s2, h2, k2⟩ := half_herm E ok eo start prob iter 1 s1 (by
    intro x hx hp
    rw [sum_congr_loc E.g ok (V := fun _ _ => 1) u1 start hx]
    exact der_pos (fun _ _ => 1) (by simp) (by intro x mu i; simp) E.g start hs x)
  have u2 : ∀ x ∈ box E.g.L, glob E.g s2.1 x = fun _ => 1 := by
    intro x hx
    funext mu
    rw [(k2 x hx).2 mu, u1 x hx, u1 _ (tshift_mem_box ok hx mu 1)]
    simp
  refine ⟨ofGlob E.g (oneTwist x1), s2, fun x hx mu => by rw [hglob x hx]; exact oneTwist_su3 _ _ _, ?_, fun x hx => ?_, fun G hG hc => ?_⟩
  · unfold overrelax
    rw [h1, Option.bind_some]
    exact h2
  · rw [(k2 x hx).1, (k1 x hx).1]; rfl
  · exact twist_not_transform E ok G hG (fun x hx => by rw [← u2 x hx, hc x hx]; exact transformed_congr E ok G hglob hx)

end

/-! ### the hypotheses can be met -/

/-- an environment with the exact exponential and Fourier transform on 12 ranks -/
def exEnv : Env where
  g := exGeo
  ji := 0
  jq := fun _ => 0
  jm := 0
  sched := fun _ n => List.range n
  fft := fun sign norm f => ofGlob exGeo fun p => (if norm then (exGeo.glbVol : ℂ)⁻¹ else 1) • ∑ x ∈ box exGeo.L, phase exGeo.L sign p x • glob exGeo f x
  expo := NormedSpace.exp
  reuni := id
  draw := fun _ _ _ => 0

theorem exEnv_ok : exEnv.g.Ok := by show exGeo.Ok; decide

theorem exEnv_eo : EoOk exEnv.g := by show EoOk exGeo; unfold EoOk; decide

theorem exEnv_fft : FftOk exEnv := by
  intro sign hs norm f p hp
  exact glob_ofGlob (g := exGeo) exEnv_ok (fun p => (if norm then (exGeo.glbVol : ℂ)⁻¹ else 1) • ∑ x ∈ box exGeo.L, phase exGeo.L sign p x • glob exGeo f x) hp

theorem exp_good {A : M3} (h : Aᴴ = -A) (ht : A.trace = 0) : IsSU3 (NormedSpace.exp A) := by
  have e : A = Complex.I • ((-Complex.I) • A) := by
    rw [smul_smul]; simp
  rw [e]
  refine exp_su3 _ ?_ ?_
  · rw [Matrix.conjTranspose_smul, h]
    simp
  · rw [Matrix.trace_smul, ht, smul_zero]

theorem exEnv_good (P : Pars) : ExpGood exEnv P := ⟨fun A h1 h2 => exp_good h1 h2, .inr exEnv_fft⟩

/-- one link equal to `diag(i,-i,1)` -/
def onePhase : Coords → Quad := fun x mu => if x = x1 ∧ mu = 3 then Matrix.diagonal ![Complex.I, -Complex.I, 1] else 1

/-- a configuration of SU(3) links which is not in the gauge -/
theorem onePhase_quality (E : Env) (ok : E.g.Ok) (start : Nat) (hs : start ≤ 3) : gqual E.g start onePhase ≠ 0 := by
  rw [Ne, gqual_zero ok]
  intro h
  have h1 := h x1 (x1_mem E ok)
  have e : ∑ mu ∈ gdirs start, (onePhase (tshift E.g x1 mu (-1)) mu - onePhase x1 mu) = 1 - Matrix.diagonal ![Complex.I, -Complex.I, 1] := by
    rw [Finset.sum_eq_single_of_mem (3 : Dir) (by unfold gdirs; simp; omega)]
    · have hne : tshift E.g x1 3 (-1) ≠ x1 := by
        intro h
        have := congrFun h 3
        unfold tshift at this
        simp [x1] at this
        have h2 := two_le E ok 3
        have h3 : ((-1 : Int) % (E.g.L 3 : Int)) = E.g.L 3 - 1 := by
          rw [Int.emod_eq_iff (by omega)]
          refine ⟨by omega, by omega, ⟨1, by ring⟩⟩
        omega
      unfold onePhase
      rw [if_neg (by rintro ⟨a, -⟩; exact hne a), if_pos ⟨rfl, rfl⟩]
    · intro mu _ hmu
      unfold onePhase
      rw [if_neg (by rintro ⟨-, a⟩; exact hmu a), if_neg (by rintro ⟨-, a⟩; exact hmu a), sub_self]
  unfold diverg at h1
  rw [e] at h1
  have h2 := congrFun (congrFun h1 0) 0
  unfold alg at h2
  simp [Matrix.trace_fin_three, Matrix.diagonal_apply] at h2
  have := congrArg Complex.im h2
  norm_num [Complex.ext_iff, Fin.sum_univ_three] at this
  rw [show ((![Complex.I, -Complex.I, 1] : Fin 3 → ℂ) 2) = 1 from rfl] at this
  norm_num at this

/-- the hypotheses of `C60_returns`, `C60_violated_report` and of the descent are met, for a configuration which is not fixed -/
example : exEnv.g.Ok ∧ EoOk exEnv.g ∧ (∀ P, ExpGood exEnv P) ∧ exEnv.expo 0 = 1 ∧ (∀ rk, Reduce.Legal (exEnv.sched rk)) ∧
    gqual exEnv.g 0 (glob exEnv.g (ofGlob exEnv.g onePhase)) ≠ 0 :=
  ⟨exEnv_ok, exEnv_eo, exEnv_good, NormedSpace.exp_zero, fun _ n => List.Perm.refl _,
    by rw [gqual_congr exEnv exEnv_ok fun x hx => glob_ofGlob exEnv_ok _ hx]; exact onePhase_quality exEnv exEnv_ok 0 (by norm_num)⟩

end

end Nissa.GFix
