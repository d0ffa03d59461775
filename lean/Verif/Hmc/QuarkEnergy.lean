import Verif.Hmc.PropsQuark
import Verif.Hmc.PropsOmelyan2

/-! # Energy along the trajectories

Continuity of the forces, derivative of a sequence of steps with respect to a common scale of the times. -/

set_option linter.all false

namespace Nissa.QForce
open Nissa.Lx Nissa.Sten Nissa.Su3f Nissa.Gauge Nissa.GForce Nissa.Paths Nissa.LSm Nissa.Stap Nissa.StD Nissa.Back Nissa.CgF Nissa.Inv Nissa.Omel Matrix Complex
open scoped RealInnerProductSpace Topology

noncomputable section

/-! ### Continuity -/

def ContM (f : ℝ → M3) (t : ℝ) : Prop := ∀ i j, ContinuousAt (fun s => f s i j) t

theorem ContM.mul {f k : ℝ → M3} {t : ℝ} (hf : ContM f t) (hk : ContM k t) : ContM (fun s => f s * k s) t := by
  intro i j
  have : (fun s => (f s * k s) i j) = fun s => ∑ c, f s i c * k s c j := funext fun s => Matrix.mul_apply
  rw [this]
  exact tendsto_finset_sum _ fun c _ => (hf i c).mul (hk c j)

theorem ContM.dag {f : ℝ → M3} {t : ℝ} (hf : ContM f t) : ContM (fun s => (f s)ᴴ) t := fun i j => (hf j i).star
theorem ContM.add {f k : ℝ → M3} {t : ℝ} (hf : ContM f t) (hk : ContM k t) : ContM (fun s => f s + k s) t := fun i j => (hf i j).add (hk i j)
theorem ContM.sub {f k : ℝ → M3} {t : ℝ} (hf : ContM f t) (hk : ContM k t) : ContM (fun s => f s - k s) t := fun i j => (hf i j).sub (hk i j)
theorem ContM.neg {f : ℝ → M3} {t : ℝ} (hf : ContM f t) : ContM (fun s => -f s) t := fun i j => (hf i j).neg
theorem ContM.const (A : M3) (t : ℝ) : ContM (fun _ => A) t := fun i j => continuousAt_const
theorem ContM.smul {f : ℝ → M3} {t : ℝ} (hf : ContM f t) (z : ℂ) : ContM (fun s => z • f s) t := fun i j => continuousAt_const.mul (hf i j)
theorem ContM.rsmul {f : ℝ → M3} {t : ℝ} (hf : ContM f t) (z : ℝ) : ContM (fun s => z • f s) t := fun i j => (hf i j).const_smul z
theorem ContM.sum {ι : Type} (s : Finset ι) {f : ι → ℝ → M3} {t : ℝ} (hf : ∀ a ∈ s, ContM (f a) t) : ContM (fun r => ∑ a ∈ s, f a r) t := by
  intro i j
  have : (fun r => (∑ a ∈ s, f a r) i j) = fun r => ∑ a ∈ s, f a r i j := funext fun r => by rw [Matrix.sum_apply]
  rw [this]
  exact tendsto_finset_sum _ fun a ha => hf a ha i j
theorem ContM.list {α : Type} (l : List α) {f : α → ℝ → M3} {t : ℝ} (hf : ∀ a ∈ l, ContM (f a) t) : ContM (fun r => (l.map fun a => f a r).sum) t := by
  induction l with
  | nil => exact ContM.const 0 t
  | cons a l ih =>
    simp only [List.map_cons, List.sum_cons]
    exact (hf a (by simp)).add (ih fun b hb => hf b (by simp [hb]))
theorem ContM.trace {f : ℝ → M3} {t : ℝ} (hf : ContM f t) : ContinuousAt (fun s => (f s).trace) t := by
  have : (fun s => (f s).trace) = fun s => ∑ i, f s i i := rfl
  rw [this]
  exact tendsto_finset_sum _ fun i _ => hf i i
theorem ContM.alg {f : ℝ → M3} {t : ℝ} (hf : ContM f t) : ContM (fun s => algPart (f s)) t := by
  have h1 : ContM (fun s => (1 / 2 : ℂ) • (f s - (f s)ᴴ)) t := (hf.sub hf.dag).smul _
  intro i j
  exact (h1 i j).sub ((h1.trace.div_const 3).mul continuousAt_const)
theorem _root_.Nissa.GForce.DerivM.cont {f : ℝ → M3} {f' : M3} {t : ℝ} (h : DerivM f f' t) : ContM f t := fun i j => (h i j).continuousAt

/-- links continuous along the path, on the lattice -/
def ContL (g : Geo) (U : ℝ → Coords → Quad) (t : ℝ) : Prop := ∀ x ∈ box g.L, ∀ mu, ContM (fun s => U s x mu) t

/-- `tau h(tau)`, `h` continuous -/
theorem deriv_mul_cont {h : ℝ → ℂ} (hc : ContinuousAt h 0) : HasDerivAt (fun s : ℝ => (s : ℂ) * h s) (h 0) 0 := by
  rw [hasDerivAt_iff_tendsto_slope_zero]
  have : Filter.Tendsto h (𝓝[≠] 0) (𝓝 (h 0)) := hc.tendsto.mono_left nhdsWithin_le_nhds
  refine Filter.Tendsto.congr' ?_ this
  filter_upwards [self_mem_nhdsWithin] with s hs
  have hs' : s ≠ 0 := hs
  have hs'' : (s : ℂ) ≠ 0 := by exact_mod_cast hs'
  simp only [zero_add, Complex.ofReal_zero, zero_mul, sub_zero, Complex.real_smul, Complex.ofReal_inv]
  rw [← mul_assoc, inv_mul_cancel₀ hs'', one_mul]

section
variable {g : Geo} (ok : g.Ok)
include ok

theorem path_cont {U : ℝ → Coords → Quad} {t : ℝ} (hU : ContL g U t) (l : List Move) {x : Coords} (hx : x ∈ box g.L) : ContM (fun s => pathProd g (U s) x l) t := by
  induction l generalizing x with
  | nil => exact ContM.const 1 t
  | cons m l ih =>
    have h1 : ContM (fun s => linkOf g (U s) x m) t := by
      unfold linkOf
      split
      · exact hU x hx _
      · exact (hU _ (tshift_mem_box ok hx _ _) _).dag
    have := h1.mul (ih (stepOf_mem ok hx m))
    have e : (fun s => pathProd g (U s) x (m :: l)) = fun s => linkOf g (U s) x m * pathProd g (U s) (stepOf g x m) l := funext fun s => pathProd_cons g (U s) x m l
    rw [e]
    exact this

theorem gauge_cont (beta C1 : ℝ) {U : ℝ → Coords → Quad} {t : ℝ} (hU : ContL g U t) {x : Coords} (hx : x ∈ box g.L) (mu : Dir) :
    ContM (fun s => forceSpec beta C1 g (U s) x mu) t := by
  unfold forceSpec
  refine ((hU x hx mu).mul (ContM.dag (ContM.add (ContM.rsmul ?_ _) (ContM.rsmul ?_ _)))).alg
  · exact ContM.sum _ fun nu _ => (path_cont ok hU _ hx).add (path_cont ok hU _ hx)
  · exact ContM.sum _ fun nu _ => (ContM.list _ fun l _ => path_cont ok hU l hx).add (ContM.list _ fun l _ => path_cont ok hU l hx)

theorem hop_cont {U : ℝ → Coords → Quad} {t : ℝ} (hU : ContL g U t) {y : ℝ → Coords → Col} {c : Coords} (hc : c ∈ box g.L)
    (hy : ∀ mu a, ContinuousAt (fun s => y s (tshift g c mu 1) a) t) (hy' : ∀ mu a, ContinuousAt (fun s => y s (tshift g c mu (-1)) a) t) (a : Fin 3) :
    ContinuousAt (fun s => hop g (U s) (y s) c a) t := by
  have e : ∀ (V : Coords → Quad) (x : Coords → Col), hop g V x c a = ∑ mu : Dir, (∑ b, V c mu a b * x (tshift g c mu 1) b -
      ∑ b, star (V (tshift g c mu (-1)) mu b a) * x (tshift g c mu (-1)) b) := by
    intro V x
    unfold hop
    rw [Finset.sum_apply]
    rfl
  simp only [e]
  refine tendsto_finset_sum _ fun mu _ => ContinuousAt.sub (tendsto_finset_sum _ fun b _ => ?_) (tendsto_finset_sum _ fun b _ => ?_)
  · exact (hU c hc mu a b).mul (hy mu b)
  · exact ((hU _ (tshift_mem_box ok hc mu (-1)) mu b a).star).mul (hy' mu b)

end

theorem resolvent_cont {E : Type} [NormedAddCommGroup E] [InnerProductSpace ℝ E] (A : ℝ → E →ₗ[ℝ] E) {p : ℝ} (hp : 0 < p)
    (hc : ∀ t x, p * ‖x‖ ^ 2 ≤ ⟪x, A t x⟫) (chi : ℝ → E) (phi : E) (hx : ∀ t, A t (chi t) = phi)
    {t0 : ℝ} (hd : ContinuousAt (fun t => A t (chi t0)) t0) : ContinuousAt chi t0 := by
  have hb : ∀ t, ‖chi t - chi t0‖ ≤ ‖A t (chi t0) - A t0 (chi t0)‖ / p := by
    intro t
    rw [le_div_iff₀ hp]
    have h1 := hc t (chi t - chi t0)
    have h2 : A t (chi t - chi t0) = -(A t (chi t0) - A t0 (chi t0)) := by rw [map_sub, hx, hx]; abel
    rw [h2] at h1
    have h3 : ⟪chi t - chi t0, -(A t (chi t0) - A t0 (chi t0))⟫ ≤ ‖chi t - chi t0‖ * ‖A t (chi t0) - A t0 (chi t0)‖ := by
      have := real_inner_le_norm (chi t - chi t0) (-(A t (chi t0) - A t0 (chi t0)))
      rwa [norm_neg] at this
    by_cases h0 : ‖chi t - chi t0‖ = 0
    · rw [h0, zero_mul]; exact norm_nonneg _
    · have h4 : 0 < ‖chi t - chi t0‖ := lt_of_le_of_ne (norm_nonneg _) (Ne.symm h0)
      refine le_of_mul_le_mul_left ?_ h4
      calc ‖chi t - chi t0‖ * (‖chi t - chi t0‖ * p) = p * ‖chi t - chi t0‖ ^ 2 := by ring
        _ ≤ _ := h1.trans h3
  show Filter.Tendsto chi (𝓝 t0) (𝓝 (chi t0))
  rw [tendsto_iff_norm_sub_tendsto_zero]
  have h1 : Filter.Tendsto (fun t => ‖A t (chi t0) - A t0 (chi t0)‖ / p) (𝓝 t0) (𝓝 0) := by
    have h3 := (tendsto_iff_norm_sub_tendsto_zero.1 hd).div_const p
    simpa using h3
  exact squeeze_zero (fun t => norm_nonneg _) hb h1

theorem toE_cont {ι : Type} [Fintype ι] {f : ℝ → ι → ℂ} {t : ℝ} (h : ∀ i, ContinuousAt (fun s => f s i) t) :
    ContinuousAt (fun s => (WithLp.toLp 2 (f s) : EV ι)) t :=
  ((PiLp.continuousLinearEquiv 2 ℝ (fun _ : ι => ℂ)).symm.continuous.continuousAt.comp (continuousAt_pi.2 h))

section
variable {g : Geo} (ok : g.Ok) (eo : EoOk g)
include ok eo

theorem sol_cont {V : ℝ → Coords → Quad} {t : ℝ} (hV : ContL g V t) {p : ℝ} (hp : 0 < p) (phi : Coords → Col) {c : Coords} (hc : c ∈ boxP g 0) (a : Fin 3) :
    ContinuousAt (fun s => sol g (V s) p phi c a) t := by
  have hk : ∀ c ∈ boxP g 0, ∀ a, ContinuousAt (fun s => kern g (V s) p (sol g (V t) p phi) c a) t := by
    intro c hc a
    have hb := (mem_boxP.1 hc).1
    have h1 := fun (d : Coords) (hd : d ∈ box g.L) a => hop_cont ok hV (y := fun _ => sol g (V t) p phi) hd (fun _ _ => continuousAt_const) (fun _ _ => continuousAt_const) a
    have h2 := hop_cont ok hV (y := fun s => hop g (V s) (sol g (V t) p phi)) hb (fun mu a => h1 _ (tshift_mem_box ok hb mu 1) a) (fun mu a => h1 _ (tshift_mem_box ok hb mu (-1)) a) a
    exact continuousAt_const.sub (h2.const_smul (1 / 4 : ℝ))
  have hE : ContinuousAt (fun s => kernE g (V s) p ((evenView g).toE (sol g (V t) p phi))) t := by
    simp only [kernE_toE ok eo]
    exact toE_cont fun i => hk i.1.1 i.1.2 i.2
  have := resolvent_cont (fun s => kernE g (V s) p) hp (fun s => kernE_coer ok eo (V s) p) (fun s => (evenView g).toE (sol g (V s) p phi)) ((evenView g).toE phi)
    (fun s => (solves_toE ok eo).1 (sol_solves ok eo (V s) hp phi)) hE
  have h2 : ContinuousAt (fun s => (PiLp.continuousLinearEquiv 2 ℝ (fun _ : ↥(boxP g 0) × Fin 3 => ℂ)) ((evenView g).toE (sol g (V s) p phi))) t :=
    (PiLp.continuousLinearEquiv 2 ℝ (fun _ : ↥(boxP g 0) × Fin 3 => ℂ)).continuous.continuousAt.comp this
  exact continuousAt_pi.1 h2 (⟨c, hc⟩, a)

theorem pfForce_cont {V : ℝ → Coords → Quad} {t : ℝ} (hV : ContL g V t) {p : ℝ} (hp : 0 < p) (phi : Coords → Col) {x : Coords} (hx : x ∈ box g.L) (mu : Dir) :
    ContM (fun s => pfForce g (V s) (sol g (V s) p phi) x mu) t := by
  have hs := fun (c : Coords) (hc : c ∈ boxP g 0) a => sol_cont ok eo hV hp phi hc a
  have ho : ∀ c ∈ boxP g 1, ∀ a, ContinuousAt (fun s => odd g (V s) (sol g (V s) p phi) c a) t := by
    intro c hc a
    have := hop_cont ok hV (y := fun s => sol g (V s) p phi) (mem_boxP.1 hc).1 (fun nu a => hs _ (tshift_mem_boxP ok eo hc nu (.inl rfl)) a)
      (fun nu a => hs _ (tshift_mem_boxP ok eo hc nu (.inr rfl)) a) a
    exact this.const_smul (1 / 2 : ℝ)
  unfold pfForce
  intro i j
  by_cases hp0 : par x = 0
  · simp only [if_pos hp0]
    have hx0 := mem_boxP.2 ⟨hx, hp0⟩
    exact (ho _ (tshift_mem_boxP ok eo hx0 mu (.inl rfl)) i).mul (hs _ hx0 j).star
  · simp only [if_neg hp0]
    have hx1 : x ∈ boxP g 1 := mem_boxP.2 ⟨hx, by unfold par at *; omega⟩
    exact ((hs _ (tshift_mem_boxP ok eo hx1 mu (.inl rfl)) i).mul (ho _ hx1 j).star).neg

theorem quark_cont {qs : List Quark} (hq : QOk qs) {U : ℝ → Coords → Quad} {t : ℝ} (hU : ContL g U t) {x : Coords} (hx : x ∈ box g.L) (mu : Dir) :
    ContM (fun s => quarkForce g qs (U s) x mu) t := by
  unfold quarkForce
  refine ((hU x hx mu).mul ?_).alg
  unfold quarkDer derSpec
  refine ContM.list qs fun q hqq => ContM.list q.phi fun phi _ => ContM.smul (ContM.list q.appr.terms fun r hr => ContM.rsmul ?_ _) _
  have hV : ContL g (fun s => dress q.u (U s)) t := fun y hy nu => (hU y hy nu).smul _
  exact pfForce_cont ok eo hV (hq q hqq r hr) phi hx mu

end

/-! ### The exponential with a moving argument -/

theorem hexp_deriv_path {Q : ℝ → M3} (hQ : ContM Q 0) (c : ℝ) : DerivM (fun s => hermitian_exact_i_exponentiate ((s * c) • Q s)) (c • (I • Q 0)) 0 := by
  intro i j
  have htrc : ContinuousAt (fun s => su3_real_trace (Q s * Q s)) 0 := by
    have : (fun s => su3_real_trace (Q s * Q s)) = fun s => (Q s * Q s).trace.re := funext fun s => trace_eq _
    rw [this]
    exact Complex.continuous_re.continuousAt.comp (hQ.mul hQ).trace
  have hdet : ContinuousAt (fun s => su3_real_det (Q s)) 0 := by
    have : (fun s => su3_real_det (Q s)) = fun s => (Q s).det.re := funext fun s => C31_real_det _
    rw [this]
    refine Complex.continuous_re.continuousAt.comp ?_
    have : (fun s => (Q s).det) = fun s => Q s 0 0 * Q s 1 1 * Q s 2 2 - Q s 0 0 * Q s 1 2 * Q s 2 1 - Q s 0 1 * Q s 1 0 * Q s 2 2 + Q s 0 1 * Q s 1 2 * Q s 2 0 +
        Q s 0 2 * Q s 1 0 * Q s 2 1 - Q s 0 2 * Q s 1 1 * Q s 2 0 := funext fun s => Matrix.det_fin_three _
    rw [this]
    have h := hQ
    exact ((((((((h 0 0).mul (h 1 1)).mul (h 2 2)).sub (((h 0 0).mul (h 1 2)).mul (h 2 1))).sub (((h 0 1).mul (h 1 0)).mul (h 2 2))).add
      (((h 0 1).mul (h 1 2)).mul (h 2 0)))).add (((h 0 2).mul (h 1 0)).mul (h 2 1))).sub (((h 0 2).mul (h 1 1)).mul (h 2 0))
  have hev : ∀ᶠ s in nhds (0 : ℝ), su3_real_trace (((s * c) • Q s) * ((s * c) • Q s)) / 2 < 4e-3 := by
    have hc : ContinuousAt (fun s : ℝ => (s * c) ^ 2 * (su3_real_trace (Q s * Q s) / 2)) 0 := (by fun_prop : ContinuousAt (fun s : ℝ => (s * c) ^ 2) 0).mul (htrc.div_const 2)
    have h0 := hc.eventually_lt (continuousAt_const (y := (4e-3 : ℝ))) (by norm_num)
    filter_upwards [h0] with t ht
    generalize t * c = r at *
    have hq : (r • Q t) * (r • Q t) = ((r : ℂ) ^ 2) • (Q t * Q t) := by
      ext i j
      simp [Matrix.mul_apply, Finset.mul_sum]
      exact Finset.sum_congr rfl fun k _ => by ring
    have htr : su3_real_trace ((r • Q t) * (r • Q t)) = r ^ 2 * su3_real_trace (Q t * Q t) := by
      rw [hq, trace_eq, trace_eq, Matrix.trace_smul]
      simp [← Complex.ofReal_pow]
    rw [htr]
    linarith
  set r : ℝ → ℂ := fun s => ser0 (su3_real_det (Q s)) (su3_real_trace (Q s * Q s) / 2) (s * c) * (1 : M3) i j +
    ser1 (su3_real_det (Q s)) (su3_real_trace (Q s * Q s) / 2) (s * c) * Q s i j + ser2 (su3_real_det (Q s)) (su3_real_trace (Q s * Q s) / 2) (s * c) * (Q s * Q s) i j with hr
  have ofR : ∀ {f : ℝ → ℝ}, ContinuousAt f 0 → ContinuousAt (fun s => ((f s : ℝ) : ℂ)) 0 := fun h => Complex.continuous_ofReal.continuousAt.comp h
  have hrc : ContinuousAt r 0 := by
    refine ContinuousAt.add (ContinuousAt.add (ContinuousAt.mul ?_ continuousAt_const) (ContinuousAt.mul ?_ (hQ i j))) (ContinuousAt.mul ?_ (hQ.mul hQ i j))
    all_goals refine ContinuousAt.add (ofR ?_) (ContinuousAt.mul (ofR ?_) continuousAt_const)
    all_goals fun_prop
  have hd : HasDerivAt (fun s : ℝ => (1 : M3) i j + (s : ℂ) * ((c : ℂ) * (I * Q s i j) + (c : ℂ) ^ 2 * ((s : ℂ) * r s))) ((c : ℂ) * (I * Q 0 i j)) 0 := by
    have h1 : ContinuousAt (fun s : ℝ => (c : ℂ) * (I * Q s i j) + (c : ℂ) ^ 2 * ((s : ℂ) * r s)) 0 :=
      (continuousAt_const.mul (continuousAt_const.mul (hQ i j))).add (continuousAt_const.mul ((ofR continuousAt_id).mul hrc))
    refine HasDerivAt.congr_deriv (HasDerivAt.const_add _ (deriv_mul_cont h1)) ?_
    simp
  have he : ∀ᶠ s : ℝ in nhds (0 : ℝ), hermitian_exact_i_exponentiate ((s * c) • Q s) i j =
      (1 : M3) i j + (s : ℂ) * ((c : ℂ) * (I * Q s i j) + (c : ℂ) ^ 2 * ((s : ℂ) * r s)) := by
    filter_upwards [hev] with t ht
    rw [hexp_series (Q t) ht, hr]
    simp only [Matrix.add_apply, Matrix.smul_apply, smul_eq_mul]
    push_cast
    ring
  refine HasDerivAt.congr_deriv (HasDerivAt.congr_of_eventuallyEq hd he) ?_
  simp

/-! ### Derivative of a sequence of steps -/

/-- the same step, for a time multiplied by `t` -/
def scale (t : ℝ) : Step → Step
  | .gauge a => .gauge (t * a)
  | .quark a => .quark (t * a)
  | .links b => .links (t * b)

theorem traj_scale (t : ℝ) (n m : Nat) : fullTraj t n m = (fullTraj 1 n m).map (scale t) := by
  have ht : ∀ (k : Nat) (l : List Step), (times k l).map (scale t) = times k (l.map (scale t)) := by
    intro k l
    unfold times
    rw [List.map_flatten, List.map_replicate]
  have hg : ∀ b : ℝ, (gaugeTraj b m).map (scale t) = gaugeTraj (t * b) m := by
    intro b
    unfold gaugeTraj
    rw [ht]
    congr 1
    simp only [om, List.map_append, List.map_cons, List.map_nil, scale]
    have h1 : t * b / (m : ℝ) = t * (b / m) := by ring
    rw [h1, show t * (b / (m : ℝ)) / 2 = t * (b / m / 2) by ring, show 0.1931833 * (t * (b / (m : ℝ))) = t * (0.1931833 * (b / m)) by ring,
      show (1 - 2 * 0.1931833) * (t * (b / (m : ℝ))) = t * ((1 - 2 * 0.1931833) * (b / m)) by ring]
  unfold fullTraj
  rw [ht]
  congr 1
  have h1 : t / (n : ℝ) = t * (1 / n) := by ring
  simp only [om, List.map_append, List.map_cons, List.map_nil, scale, hg]
  rw [h1, show t * (1 / (n : ℝ)) / 2 = t * (1 / n / 2) by ring, show 0.1931833 * (t * (1 / (n : ℝ))) = t * (0.1931833 * (1 / n)) by ring,
    show (1 - 2 * 0.1931833) * (t * (1 / (n : ℝ))) = t * ((1 - 2 * 0.1931833) * (1 / n)) by ring]

/-- continuity of the quark force of a theory -/
def TCont (g : Geo) (T : Theory) : Prop := ∀ (U : ℝ → Coords → Quad), ContL g U 0 → ∀ x ∈ box g.L, ∀ mu, ContM (fun s => T.quark (U s) x mu) 0

theorem runs_zero (g : Geo) (T : Theory) (l : List Step) (s : State) : runs g T (l.map (scale 0)) s = s := by
  induction l generalizing s with
  | nil => rfl
  | cons st l ih =>
    have : (scale 0 st).run g T s = s := by
      obtain ⟨H, U⟩ := s
      cases st <;> simp [scale, Step.run, hexp_zero]
    show runs g T (l.map (scale 0)) ((scale 0 st).run g T s) = s
    rw [this, ih]

theorem mom_deriv {H : ℝ → M3} {H' : M3} {F : ℝ → M3} (hH : DerivM H H' 0) (hF : ContM F 0) (a : ℝ) :
    DerivM (fun s => H s - (s * a) • (I • F s)) (H' - a • (I • F 0)) 0 := by
  intro i j
  have h1 : ContinuousAt (fun s => (a : ℂ) * (I * F s i j)) 0 := continuousAt_const.mul (continuousAt_const.mul (hF i j))
  have h2 := HasDerivAt.sub (hH i j) (deriv_mul_cont h1)
  refine HasDerivAt.congr_deriv (HasDerivAt.congr_of_eventuallyEq h2 (Filter.Eventually.of_forall fun s => ?_)) ?_
  · simp [mul_assoc]
  · simp

section
variable {g : Geo} (ok : g.Ok)
include ok

/-- the derivatives add up, as if the steps were done together -/
theorem runs_deriv {T : Theory} (hT : TCont g T) (s0 : State) (l : List Step) : ∀ x ∈ box g.L, ∀ mu,
    DerivM (fun t => (runs g T (l.map (scale t)) s0).1 x mu)
      (-((l.map Step.gaugeTime).sum • (I • forceSpec T.beta T.C1 g s0.2 x mu)) - (l.map Step.quarkTime).sum • (I • T.quark s0.2 x mu)) 0 ∧
    DerivM (fun t => (runs g T (l.map (scale t)) s0).2 x mu) ((l.map Step.linkTime).sum • ((I • s0.1 x mu) * s0.2 x mu)) 0 := by
  induction l using List.reverseRecOn with
  | nil =>
    intro x hx mu
    simp only [List.map_nil, List.sum_nil, zero_smul, neg_zero, sub_zero]
    exact ⟨DerivM.const _ 0, DerivM.const _ 0⟩
  | append_singleton l st ih =>
    intro x hx mu
    have hrun : ∀ t, runs g T ((l ++ [st]).map (scale t)) s0 = (scale t st).run g T (runs g T (l.map (scale t)) s0) := by
      intro t
      unfold runs
      rw [List.map_append, List.foldl_append]
      rfl
    have hc : ContL g (fun t => (runs g T (l.map (scale t)) s0).2) 0 := fun y hy nu => (ih y hy nu).2.cont
    have h0 := runs_zero g T l s0
    simp only [hrun]
    simp only [List.map_append, List.sum_append, List.map_cons, List.map_nil, List.sum_cons, List.sum_nil, add_zero]
    obtain ⟨i1, i2⟩ := ih x hx mu
    cases st with
    | gauge a =>
      simp only [Step.gaugeTime, Step.quarkTime, Step.linkTime, add_zero]
      refine ⟨?_, i2⟩
      have hg := gauge_cont ok T.beta T.C1 hc hx mu
      have := mom_deriv i1 hg a
      rw [h0] at this
      refine (congrArg (fun M => DerivM _ M 0) ?_).mp this
      rw [add_smul]
      abel
    | quark a =>
      simp only [Step.gaugeTime, Step.quarkTime, Step.linkTime, add_zero]
      refine ⟨?_, i2⟩
      have := mom_deriv i1 (hT _ hc x hx mu) a
      rw [h0] at this
      refine (congrArg (fun M => DerivM _ M 0) ?_).mp this
      rw [add_smul]
      abel
    | links b =>
      simp only [Step.gaugeTime, Step.quarkTime, Step.linkTime, add_zero]
      refine ⟨i1, ?_⟩
      have := (hexp_deriv_path i1.cont b).mul i2
      rw [h0] at this
      refine (congrArg (fun M => DerivM _ M 0) ?_).mp this
      rw [zero_mul, zero_smul, hexp_zero, Matrix.one_mul, add_smul, Matrix.smul_mul, Matrix.smul_mul, add_comm]

end

end

end Nissa.QForce
