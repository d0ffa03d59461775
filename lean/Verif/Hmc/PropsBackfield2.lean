import Verif.Hmc.PropsBackfield

/-! # Properties of the background field (C46): winding lines, staggered phases, insertion in a configuration -/

set_option linter.all false

namespace Nissa.Back
open Nissa.Lx Nissa.Sten Nissa.Gauge Nissa.Su3f Matrix

noncomputable section

section
variable {g : Geo} (ok : g.Ok) (eo : EoOk g)
include ok eo

omit eo in
theorem update_mem_box {x : Coords} (hx : x ∈ box g.L) (mu : Dir) {t : Nat} (ht : t < g.L mu) : Function.update x mu t ∈ box g.L := by
  rw [mem_box] at hx ⊢
  intro nu
  by_cases h : nu = mu
  · subst h; rw [Function.update_self]; exact ht
  · rw [Function.update_of_ne h]; exact hx nu

/-- C46: every element of the background field is a phase. -/
theorem C46_unit_modulus (ji : Nat) (jc : Coords) (im_pot charge : ℝ) (p : EmPars) {S : Nat → Nat → Nat → Quad1}
    (h : init_backfield g ji jc im_pot charge p = some S) (x : Coords) (hx : x ∈ box g.L) (mu : Dir) :
    globEo g S x mu * (starRingEnd ℂ) (globEo g S x mu) = 1 := by
  rw [init_known ok eo ji jc h x hx mu, cis_mul_conj]

omit eo in
/-- only one link of the line carries the closure of the 1/L2 quantization -/
theorem sum_L2 (x : Coords) (mu nu : Dir) (hne : mu ≠ nu) (hx : x ∈ box g.L) :
    ∑ t ∈ Finset.range (g.L mu), (argsOneOverL2 g (Function.update x mu t) mu nu mu : ℝ) = -(centred (g.L nu) (x nu) : ℝ) * g.L mu := by
  have h2 := L_two ok mu
  rw [Finset.sum_eq_single (g.L mu / 2 - 1)]
  · rw [argsL2_val g _ hne, if_neg hne, if_pos]
    · rw [Function.update_of_ne hne.symm]; push_cast; rfl
    · refine ⟨rfl, ?_⟩
      have := (centred_last ok (update_mem_box ok hx mu (t := g.L mu / 2 - 1) (by omega)) mu).2 (by rw [Function.update_self]; omega)
      exact this
  · intro t ht htne
    rw [Finset.mem_range] at ht
    rw [argsL2_val g _ hne, if_neg hne, if_neg]
    · simp
    · rintro ⟨-, h⟩
      have := (centred_last ok (update_mem_box ok hx mu ht) mu).1 h
      rw [Function.update_self] at this
      omega
  · intro h
    rw [Finset.mem_range] at h
    omega

/-- the electric field requested along the spatial direction `k` -/
def electric (p : EmPars) (k : Dir) : ℝ := strength p 0 k

/-- C46: the product of the phases along a line winding the lattice in time is -1 (antiperiodicity) times the exponential of the
imaginary chemical potential in units of pi, if there is no electric field; with the 1/L2 quantization the electric field gives to
the line the Aharonov-Bohm phase of its position; with the half-half one it does not contribute. -/
theorem C46_time_line (ji : Nat) (jc : Coords) (im_pot charge : ℝ) (p : EmPars) {S : Nat → Nat → Nat → Quad1}
    (h : init_backfield g ji jc im_pot charge p = some S) (x : Coords) (hx : x ∈ box g.L) :
    line1 g (globEo g S) x 0 = -cis (Real.pi * im_pot) * (if p.flag = 1 then cis (-(2 * Real.pi * charge * (
      strength p 0 1 * centred (g.L 1) (x 1) / g.L 1 + strength p 0 2 * centred (g.L 2) (x 2) / g.L 2 +
        strength p 0 3 * centred (g.L 3) (x 3) / g.L 3))) else 1) := by
  classical
  have h2 := L_two ok 0
  have hL : (g.L 0 : ℝ) ≠ 0 := by positivity
  have hk := init_known ok eo ji jc h
  unfold line1
  rw [Finset.prod_congr rfl (fun t ht => hk _ (update_mem_box ok hx 0 (Finset.mem_range.1 ht)) 0), cis_sum]
  have hbase : -cis (Real.pi * im_pot) = cis ((g.L 0 : ℝ) * (im_pot * Real.pi / g.L 0 + -1 * Real.pi / g.L 0)) := by
    rw [show (g.L 0 : ℝ) * (im_pot * Real.pi / g.L 0 + -1 * Real.pi / g.L 0) = Real.pi * im_pot + -Real.pi by field_simp, cis_add, cis_pi]
    ring
  rw [hbase]
  have hz : ∀ (args : Geo → Coords → Dir → Dir → Dir → Int), (∀ c ∈ components p, ∀ y, args g y c.2.1 c.2.2 0 = 0) →
      ∑ t ∈ Finset.range (g.L 0), backAngle g args im_pot charge p (Function.update x 0 t) 0 =
        (g.L 0 : ℝ) * (im_pot * Real.pi / g.L 0 + -1 * Real.pi / g.L 0) := by
    intro args ha
    rw [Finset.sum_congr rfl (g := fun _ => im_pot * Real.pi / g.L 0 + -1 * Real.pi / g.L 0), Finset.sum_const, Finset.card_range, nsmul_eq_mul]
    intro t _
    unfold backAngle
    rw [if_pos rfl]
    have : ((components p).map (fun c => contrib g args charge c (Function.update x 0 t) 0)).sum = 0 := by
      apply List.sum_eq_zero
      intro y hy
      obtain ⟨c, hc, rfl⟩ := List.mem_map.1 hy
      unfold contrib
      rw [ha c hc]
      split <;> simp
    rw [this]
    split <;> rw [add_zero]
  by_cases h1 : p.flag = 1
  · rw [if_pos h1, ← cis_add]
    congr 1
    have hq : argsOfQuantization p.flag = some argsOneOverL2 := by rw [h1]; rfl
    rw [hq]
    simp only
    have hf : p.flag ≠ 0 := by rw [h1]; decide
    unfold backAngle
    simp only [if_pos, if_pos hf, Finset.sum_add_distrib, Finset.sum_const, Finset.card_range, nsmul_eq_mul]
    rw [mul_add]
    congr 1
    unfold components
    simp only [List.map_cons, List.map_nil, List.sum_cons, List.sum_nil, Finset.sum_add_distrib, add_zero]
    have hcon : ∀ (s : ℝ) (k : Dir), k ≠ 0 → ∑ t ∈ Finset.range (g.L 0), contrib g argsOneOverL2 charge (s, 0, k) (Function.update x 0 t) 0 =
        -(2 * Real.pi * charge * ((if |s| > 1e-10 then s else 0) * centred (g.L k) (x k) / g.L k)) := by
      intro s k hk
      have hLk : (g.L k : ℝ) ≠ 0 := by have := L_two ok k; positivity
      unfold contrib
      by_cases hs : |s| > 1e-10
      · simp only [if_pos hs]
        rw [← Finset.mul_sum, sum_L2 ok x 0 k hk.symm hx, emPhase_eq]
        field_simp
      · simp only [if_neg hs]
        rw [Finset.sum_const_zero]
        simp
    have hmag : ∀ (s : ℝ) (a b : Dir), a ≠ b → a ≠ 0 → b ≠ 0 →
        ∑ t ∈ Finset.range (g.L 0), contrib g argsOneOverL2 charge (s, a, b) (Function.update x 0 t) 0 = 0 := by
      intro s a b hab ha hb
      apply Finset.sum_eq_zero
      intro t _
      unfold contrib
      simp only [argsL2_val g _ hab, if_neg (Ne.symm hb), Ne.symm ha, false_and, if_false]
      split <;> simp
    rw [hcon _ 1 (by decide), hcon _ 2 (by decide), hcon _ 3 (by decide), hmag _ 2 3 (by decide) (by decide) (by decide),
      hmag _ 3 1 (by decide) (by decide) (by decide), hmag _ 1 2 (by decide) (by decide) (by decide)]
    unfold strength
    simp only [hf, ne_eq, not_false_eq_true, true_and]
    simp
    ring
  · rw [if_neg h1, mul_one]
    congr 1
    apply hz
    intro c hc y
    unfold argsOfQuantization
    by_cases h0 : p.flag = 0
    · rw [if_pos h0]; rfl
    rw [if_neg h0, if_neg h1]
    by_cases h2 : p.flag = 2
    · rw [if_pos h2]
      simp only
      rw [argsHH_val, if_neg]
      unfold components at hc
      simp only [List.mem_cons, List.not_mem_nil, or_false] at hc
      rcases hc with rfl | rfl | rfl | rfl | rfl | rfl <;> simp
    · rw [if_neg h2]; rfl

end

/-! ### Staggered phases -/

/-- (-1) to a power -/
def sgn (n : Nat) : Int := 1 - 2 * ((n % 2 : Nat) : Int)

theorem sgn_sq (n : Nat) : sgn n * sgn n = 1 := by
  unfold sgn
  rcases Nat.mod_two_eq_zero_or_one n with h | h <;> rw [h] <;> decide

/-- specification of the staggered phases: `eta_mu(x) = (-1)^{x_0+...+x_{mu-1}}` -/
def eta (c : Coords) (mu : Dir) : Int := (-1) ^ (∑ nu ∈ Finset.univ.filter (fun nu : Dir => nu < mu), c nu)

theorem sgn_pow (n : Nat) : sgn n = (-1) ^ n := by
  unfold sgn
  rcases Nat.even_or_odd n with h | h
  · rw [h.neg_one_pow, Nat.even_iff.1 h]; rfl
  · rw [h.neg_one_pow, Nat.odd_iff.1 h]; rfl

/-- C46: the two functions computing the staggered phases give `(-1)^{x_0+...+x_{mu-1}}`. -/
theorem C46_stagphase (junk : Dir → Int) (c : Coords) (mu : Dir) :
    getStagphaseOfLx junk c mu = eta c mu ∧ getStagphaseOfLxDir c mu = eta c mu := by
  have e : ∀ n : Nat, (1 - 2 * ((n % 2 : Nat) : Int)) = (-1) ^ n := fun n => sgn_pow n
  unfold getStagphaseOfLx getStagphaseOfLxDir eta
  simp only [List.foldl_cons, List.foldl_nil, e]
  have f0 : Finset.univ.filter (fun nu : Dir => nu < 0) = ∅ := by decide
  have f1 : Finset.univ.filter (fun nu : Dir => nu < 1) = {0} := by decide
  have f2 : Finset.univ.filter (fun nu : Dir => nu < 2) = {0, 1} := by decide
  have f3 : Finset.univ.filter (fun nu : Dir => nu < 3) = {0, 1, 2} := by decide
  have g0 : (([1, 2, 3] : List Dir).filter (fun nu => nu ≤ 0)) = [] := by decide
  have g1 : (([1, 2, 3] : List Dir).filter (fun nu => nu ≤ 1)) = [1] := by decide
  have g2 : (([1, 2, 3] : List Dir).filter (fun nu => nu ≤ 2)) = [1, 2] := by decide
  have g3 : (([1, 2, 3] : List Dir).filter (fun nu => nu ≤ 3)) = [1, 2, 3] := by decide
  have d1 : (1 : Dir) - 1 = 0 := by decide
  have d2 : (2 : Dir) - 1 = 1 := by decide
  have d3 : (3 : Dir) - 1 = 2 := by decide
  fin_cases mu
  · constructor
    · simp [f0]
    · simp [f0, g0]
  · constructor
    · simp only [Fin.mk_one, f1, d1, d2, d3]
      simp
    · simp only [Fin.mk_one, f1, g1, List.foldl_cons, List.foldl_nil, d1]; simp
  · constructor
    · simp only [Fin.reduceFinMk, f2, d1, d2, d3]
      simp [pow_add]
    · simp only [Fin.reduceFinMk, f2, g2, List.foldl_cons, List.foldl_nil, d1, d2]
      simp [pow_add]
  · constructor
    · simp only [Fin.reduceFinMk, f3, d1, d2, d3]
      simp [pow_add, mul_assoc]
    · simp only [Fin.reduceFinMk, f3, g3, List.foldl_cons, List.foldl_nil, d1, d2, d3]
      simp [pow_add, mul_assoc]

theorem eta_sq (c : Coords) (mu : Dir) : eta c mu * eta c mu = 1 := by
  unfold eta
  rw [← pow_add, Even.neg_one_pow ⟨_, rfl⟩]

/-- the phase changes sign going one site further in a previous direction -/
theorem eta_shift {g : Geo} (ok : g.Ok) (eo : EoOk g) {c : Coords} (hc : c ∈ box g.L) (mu nu : Dir) :
    eta (tshift g c nu 1) mu = if nu < mu then -eta c mu else eta c mu := by
  have hpar : (-1 : Int) ^ (tshift g c nu 1 nu) = -(-1) ^ (c nu) := by
    rw [tshift_at hc nu]
    have he : g.L nu % 2 = 0 := by
      have := eo nu
      have hd := ok.dvd nu
      unfold Geo.loc at this
      obtain ⟨k, hk⟩ := hd
      have hR := ok.R_pos nu
      rw [hk, Nat.mul_div_cancel_left _ hR] at this
      rw [hk, Nat.mul_mod, this]; simp
    split
    · rename_i h
      have ho : Odd (c nu) := Nat.odd_iff.2 (by omega)
      rw [ho.neg_one_pow]; decide
    · rw [pow_succ]; ring
  unfold eta
  by_cases h : nu < mu
  · rw [if_pos h]
    have hm : nu ∈ Finset.univ.filter (fun rho : Dir => rho < mu) := by simp [h]
    rw [← Finset.add_sum_erase _ _ hm, ← Finset.add_sum_erase _ _ hm, pow_add, pow_add, hpar]
    rw [Finset.sum_congr rfl (fun rho hrho => tshift_other g c (Finset.ne_of_mem_erase hrho) 1)]
    ring
  · rw [if_neg h]
    congr 1
    refine Finset.sum_congr rfl fun rho hrho => tshift_other g c ?_ 1
    simp only [Finset.mem_filter, Finset.mem_univ, true_and] at hrho
    intro he; subst he; exact h hrho

/-- the product of the staggered phases around any square is -1 -/
theorem eta_square {g : Geo} (ok : g.Ok) (eo : EoOk g) {x : Coords} (hx : x ∈ box g.L) {mu nu : Dir} (hne : mu ≠ nu) :
    eta x mu * eta (tshift g x mu 1) nu * eta (tshift g x nu 1) mu * eta x nu = -1 := by
  have h1 := eta_sq x mu
  have h2 := eta_sq x nu
  rw [eta_shift ok eo hx, eta_shift ok eo hx]
  rcases lt_or_gt_of_ne hne with h | h
  · rw [if_pos h, if_neg (not_lt.2 h.le)]
    linear_combination (-(eta x nu * eta x nu)) * h1 - h2
  · rw [if_pos h, if_neg (not_lt.2 h.le)]
    linear_combination (-(eta x nu * eta x nu)) * h1 - h2

/-! ### Insertion in a configuration -/

section
variable {g : Geo} (ok : g.Ok) (eo : EoOk g)
include ok eo

/-- C46: adding (or removing) the background field multiplies every link by its phase (or by the conjugate), times the staggered
phase if required. -/
theorem C46_insert_eo (ji : Nat) (jc : Coords) (junk : Dir → Int) (U : Nat → Nat → Nat → Quad) (rem without : Bool)
    (u1 : Nat → Nat → Nat → Quad1) (x : Coords) (hx : x ∈ box g.L) (mu : Dir) :
    globEo g (add_or_rem_backfield_eo g ji jc junk U rem u1 without) x mu =
      ((if rem then (starRingEnd ℂ) (globEo g u1 x mu) else globEo g u1 x mu) * (if without then 1 else (eta x mu : ℂ))) • globEo g U x mu := by
  obtain ⟨rk, e, l, -, -, -, h1, h2, hF, -⟩ := eoSiteOf ok eo hx
  rw [hF, hF, hF]
  unfold add_or_rem_backfield_eo linkFactor
  rw [eoCoord_eq ji jc h1 h2, (C46_stagphase junk x mu).1]
  cases rem <;> cases without <;> simp

/-- C46: removing what was added gives back the configuration. -/
theorem C46_add_then_remove (ji : Nat) (jc : Coords) (junk junk' : Dir → Int) (im_pot charge : ℝ) (p : EmPars)
    {S : Nat → Nat → Nat → Quad1} (h : init_backfield g ji jc im_pot charge p = some S) (U : Nat → Nat → Nat → Quad) (without : Bool)
    (x : Coords) (hx : x ∈ box g.L) :
    globEo g (add_or_rem_backfield_eo g ji jc junk' (add_or_rem_backfield_eo g ji jc junk U false S without) true S without) x = globEo g U x := by
  funext mu
  rw [C46_insert_eo ok eo ji jc junk' _ true without S x hx, C46_insert_eo ok eo ji jc junk U false without S x hx, smul_smul]
  have hu := C46_unit_modulus ok eo ji jc im_pot charge p h x hx mu
  have he : ((eta x mu : ℤ) : ℂ) * (eta x mu : ℂ) = 1 := by exact_mod_cast eta_sq x mu
  cases without
  · simp only [if_true, Bool.false_eq_true, if_false]
    rw [show (starRingEnd ℂ) (globEo g S x mu) * (eta x mu : ℂ) * (globEo g S x mu * (eta x mu : ℂ)) =
      (globEo g S x mu * (starRingEnd ℂ) (globEo g S x mu)) * ((eta x mu : ℂ) * (eta x mu : ℂ)) by ring, hu, he, one_mul, one_smul]
  · simp only [if_true, Bool.false_eq_true, if_false, mul_one]
    rw [mul_comm, hu, one_smul]

/-- C46: adding the staggered phases twice gives back the configuration. -/
theorem C46_stagphases_twice (ji : Nat) (jc : Coords) (junk junk' : Dir → Int) (U : Nat → Nat → Nat → Quad) (x : Coords) (hx : x ∈ box g.L) :
    globEo g (add_or_rem_stagphases_to_conf g ji jc junk' (add_or_rem_stagphases_to_conf g ji jc junk U)) x = globEo g U x := by
  obtain ⟨rk, e, l, -, -, -, h1, h2, hF, -⟩ := eoSiteOf ok eo hx
  funext mu
  rw [hF, hF]
  unfold add_or_rem_stagphases_to_conf
  rw [eoCoord_eq ji jc h1 h2, (C46_stagphase junk x mu).1, (C46_stagphase junk' x mu).1, smul_smul]
  have he : (((eta x mu : ℤ) : ℝ) : ℂ) * (((eta x mu : ℤ) : ℝ) : ℂ) = 1 := by exact_mod_cast eta_sq x mu
  rw [he, one_smul]

/-- C46: the plaquettes of the configuration in the background: each is multiplied by the phase of the background field around the
square, and by -1 if the staggered phases are included. -/
theorem C46_plaquette (ji : Nat) (jc : Coords) (junk : Dir → Int) (U : Nat → Nat → Nat → Quad) (without : Bool)
    (u1 : Nat → Nat → Nat → Quad1) (x : Coords) (hx : x ∈ box g.L) {mu nu : Dir} (hne : mu ≠ nu) :
    square g (globEo g (add_or_rem_backfield_eo g ji jc junk U false u1 without)) x mu nu =
      ((if without then 1 else -1) * square1 g (globEo g u1) x mu nu) • square g (globEo g U) x mu nu := by
  unfold square square1
  have hx1 := tshift_mem_box ok hx mu 1
  have hx2 := tshift_mem_box ok hx nu 1
  rw [C46_insert_eo ok eo ji jc junk U false without u1 x hx, C46_insert_eo ok eo ji jc junk U false without u1 _ hx1,
    C46_insert_eo ok eo ji jc junk U false without u1 _ hx2, C46_insert_eo ok eo ji jc junk U false without u1 x hx]
  simp only [Matrix.conjTranspose_smul, Matrix.smul_mul, Matrix.mul_smul, smul_smul]
  congr 1
  have he : ((eta x mu : ℤ) : ℂ) * (eta (tshift g x mu 1) nu : ℂ) * (eta (tshift g x nu 1) mu : ℂ) * (eta x nu : ℂ) = -1 := by
    exact_mod_cast eta_square ok eo hx hne
  cases without
  · simp only [Bool.false_eq_true, if_false, Complex.star_def, map_mul, map_intCast]
    linear_combination (globEo g u1 x mu * globEo g u1 (tshift g x mu 1) nu * (starRingEnd ℂ) (globEo g u1 (tshift g x nu 1) mu) *
      (starRingEnd ℂ) (globEo g u1 x nu)) * he
  · simp only [Bool.false_eq_true, if_false, if_true, mul_one, one_mul, Complex.star_def]
    ring


omit ok eo in
/-- a loop updating in place different elements -/
theorem inplace {α V : Type} (idx : α → Nat) (f : α → Nat → V → V) : ∀ (l : List α), l.Nodup → (∀ a ∈ l, ∀ b ∈ l, idx a = idx b → a = b) → ∀ (m : Nat → V),
    (∀ a ∈ l, l.foldl (fun m a => Function.update m (idx a) (f a (idx a) (m (idx a)))) m (idx a) = f a (idx a) (m (idx a))) ∧
    ∀ i, (∀ a ∈ l, idx a ≠ i) → l.foldl (fun m a => Function.update m (idx a) (f a (idx a) (m (idx a)))) m i = m i := by
  intro l
  induction l with
  | nil => intro _ _ m; simp
  | cons a l ih =>
      intro hnd hinj m
      rw [List.nodup_cons] at hnd
      have ih' := ih hnd.2 (fun b hb c hc => hinj b (List.mem_cons_of_mem _ hb) c (List.mem_cons_of_mem _ hc))
        (Function.update m (idx a) (f a (idx a) (m (idx a))))
      have hna : ∀ b ∈ l, idx b ≠ idx a := by
        intro b hb he
        have := hinj b (List.mem_cons_of_mem _ hb) a List.mem_cons_self he
        subst this; exact hnd.1 hb
      constructor
      · intro b hb
        rw [List.foldl_cons]
        rcases List.mem_cons.1 hb with rfl | hb'
        · rw [ih'.2 _ hna, Function.update_self]
        · rw [ih'.1 b hb', Function.update_of_ne (hna b hb')]
      · intro i hi
        rw [List.foldl_cons, ih'.2 i (fun b hb => hi b (List.mem_cons_of_mem _ hb)), Function.update_of_ne]
        exact fun h => hi a List.mem_cons_self h.symm

omit ok eo in
theorem eoList_nodup (n : Nat) : ([0, 1].flatMap (fun p => (List.range n).map (fun e => (p, e)))).Nodup := by
  have h : ∀ p : Nat, ((List.range n).map (fun e => (p, e))).Nodup := fun p =>
    List.Nodup.map (fun a b h => (Prod.mk.inj h).2) List.nodup_range
  simp only [List.flatMap_cons, List.flatMap_nil, List.append_nil]
  refine List.Nodup.append (h 0) (h 1) ?_
  intro x hx hy
  simp only [List.mem_map] at hx hy
  obtain ⟨a, -, rfl⟩ := hx
  obtain ⟨b, -, hb⟩ := hy
  simp at hb

/-- C46: the version for the full configuration does the same to every link. -/
theorem C46_insert_lx (ji : Nat) (jc : Coords) (junk : Dir → Int) (U : Nat → Nat → Quad) (rem without : Bool)
    (u1 : Nat → Nat → Nat → Quad1) (x : Coords) (hx : x ∈ box g.L) (mu : Dir) :
    glob g (add_or_rem_backfield_lx g ji jc junk U rem u1 without) x mu =
      ((if rem then (starRingEnd ℂ) (globEo g u1 x mu) else globEo g u1 x mu) * (if without then 1 else (eta x mu : ℂ))) • glob g U x mu := by
  obtain ⟨rk, i, hrk, hi, hr, hc, hG⟩ := lxSite ok hx
  obtain ⟨c, p, e, k1, k2, k3, k4, k5, k6, -⟩ := C07_eo_of_lx g ok eo (coordOfLx rk g.R) i (by omega)
  rw [hc] at k1; cases k1
  have hev := even_locVol ok eo
  have hE : ∀ {V : Type} (F : Nat → Nat → Nat → V), globEo g F x = F rk p e := by
    intro V F
    have hown := owner_local ok hr hi hc
    rw [lx_coord ok hrk] at hown
    unfold globEo
    rw [hown]
    simp only
    rw [k4, ← k2]; rfl
  rw [hG, hG, hE]
  have hp : p < 2 := by omega
  have he : e < locVolh g := k6.1 hi
  have hmem : (p, e) ∈ [0, 1].flatMap (fun p => (List.range (locVolh g)).map (fun e => (p, e))) := by
    have hp' : p = 0 ∨ p = 1 := by omega
    simp only [List.mem_flatMap, List.mem_map, List.mem_range]
    exact ⟨p, by simpa using hp', e, he, rfl⟩
  have hinj : ∀ a ∈ [0, 1].flatMap (fun p => (List.range (locVolh g)).map (fun e => (p, e))), ∀ b ∈ [0, 1].flatMap (fun p => (List.range (locVolh g)).map (fun e => (p, e))),
      (loclxOfLoceo g (coordOfLx rk g.R) a.1 a.2).getD ji = (loclxOfLoceo g (coordOfLx rk g.R) b.1 b.2).getD ji → a = b := by
    have aux : ∀ a ∈ [0, 1].flatMap (fun p => (List.range (locVolh g)).map (fun e => (p, e))), a.1 < 2 ∧ a.2 < allVol g / 2 := by
      intro a ha
      simp only [List.mem_flatMap, List.mem_map, List.mem_range, List.mem_cons, List.not_mem_nil, or_false] at ha
      obtain ⟨q, hq, d, hd, rfl⟩ := ha
      have hvol : locVolh g = g.locVol / 2 := rfl
      have hb2 : g.bordVol = 2 * g.bordVolh := rfl
      refine ⟨by simp only; omega, ?_⟩
      unfold allVol; simp only; omega
    intro a ha b hb hab
    obtain ⟨l, a1, a2, a3, a4, -⟩ := C07_lx_of_eo g ok eo (coordOfLx rk g.R) a.1 a.2 (aux a ha).1 (aux a ha).2
    obtain ⟨l', b1, b2, b3, b4, -⟩ := C07_lx_of_eo g ok eo (coordOfLx rk g.R) b.1 b.2 (aux b hb).1 (aux b hb).2
    rw [a1, b1, Option.getD_some, Option.getD_some] at hab
    subst hab
    rw [a3, Option.some.injEq] at b3
    rw [a4, Option.some.injEq] at b4
    exact Prod.ext b3 b4
  have key := (inplace (fun pe : Nat × Nat => (loclxOfLoceo g (coordOfLx rk g.R) pe.1 pe.2).getD ji)
    (fun pe ilx (v : Quad) => (fun mu => linkFactor junk rem without ((glbCoordOfLoclx g (coordOfLx rk g.R) ilx).getD jc) (u1 rk pe.1 pe.2) mu • v mu : Quad))
    _ (eoList_nodup (locVolh g)) hinj (U rk)).1 (p, e) hmem
  simp only [k5, Option.getD_some, hc] at key
  unfold add_or_rem_backfield_lx
  have := congrFun key mu
  rw [this]
  unfold linkFactor
  rw [(C46_stagphase junk x mu).1]
  cases rem <;> cases without <;> simp

end

/-! ### The hypotheses are met -/

/-- a 4^4 lattice split between two ranks, with a magnetic field of three quanta for a charge 1/3 -/
def exGeo : Geo := ⟨![4, 4, 4, 4], ![2, 1, 1, 1]⟩
/-- unit magnetic and electric fields -/
def exPars : EmPars := ⟨1, ![0, 0, 6], ![3, 0, 0]⟩

example : exGeo.Ok ∧ EoOk exGeo ∧ exPars.flag = 1 := by decide

example (ji : Nat) (jc : Coords) : (∃ S, init_backfield exGeo ji jc 0.5 (1 / 3) exPars = some S) ∧
    strength exPars 2 3 = 3 ∧ ∀ mu nu, ∃ n : ℤ, (1 / 3 : ℝ) * strength exPars mu nu = n := by
  have e3 : |(3 : ℝ)| > 1e-10 := by norm_num
  have e6 : |(6 : ℝ)| > 1e-10 := by norm_num
  have e0 : ¬(|(0 : ℝ)| > 1e-10) := by norm_num
  refine ⟨?_, ?_, ?_⟩
  · rcases h : init_backfield exGeo ji jc 0.5 (1 / 3) exPars with _ | S
    · rw [C46_abort_iff (by decide) (by decide)] at h
      obtain ⟨_, c, _, _, h⟩ := h
      simp [exPars] at h
    · exact ⟨S, rfl⟩
  · unfold strength exPars
    simp
    norm_num
  · have hf : (1 : Int) ≠ 0 := by decide
    have z : ∃ n : ℤ, (0 : ℝ) = n := ⟨0, by simp⟩
    have z1 : ∃ n : ℤ, (1 : ℝ) = n := ⟨1, by simp⟩
    have z2 : ∃ n : ℤ, (2 : ℝ) = n := ⟨2, by simp⟩
    have y1 : ∃ n : ℤ, (-1 : ℝ) = n := ⟨-1, by simp⟩
    have y2 : ∃ n : ℤ, (-2 : ℝ) = n := ⟨-2, by simp⟩
    intro mu nu
    unfold strength exPars
    fin_cases mu <;> fin_cases nu <;> simp <;> norm_num <;> assumption

/-- C46 (violated without the condition): half a quantum in a plane is accepted, and a square has the wrong phase: the product around it
is not the exponential of the strength over the area. -/
theorem C46_violated_fractional (ji : Nat) (jc : Coords) : ∃ S, add_em_component exGeo ji jc init_backfield_to_id 1 (1 / 2) 1 2 3 = some S ∧
    square1 exGeo (globEo exGeo S) (fun _ => 1) 2 3 ≠ cis (2 * Real.pi * 1 * (1 / 2) / (exGeo.L 2 * exGeo.L 3)) := by
  have hs : ∃ S, add_em_component exGeo ji jc init_backfield_to_id 1 (1 / 2) 1 2 3 = some S := by
    unfold add_em_component argsOfQuantization
    simp
  obtain ⟨S, hS⟩ := hs
  refine ⟨S, hS, ?_⟩
  rw [C46_defect (by decide) (by decide) ji jc 1 (1 / 2) 1 rfl 2 3 (by decide) hS _ (by decide), if_pos (by decide)]
  rw [show -(2 * Real.pi * (1 * (1 / 2))) = -Real.pi by ring, cis_pi]
  intro h
  have h1 := cis_mul_conj (2 * Real.pi * 1 * (1 / 2) / (exGeo.L 2 * exGeo.L 3))
  generalize cis (2 * Real.pi * 1 * (1 / 2) / (exGeo.L 2 * exGeo.L 3)) = z at h h1
  have h0 : z = 0 := by linear_combination (-1 / 2) * h
  rw [h0] at h1
  simp at h1

end

end Nissa.Back
