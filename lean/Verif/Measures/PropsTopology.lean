/- C69, first part: the correlator of the topological charge. -/
import Verif.Measures.Topology
import Verif.Operations.PropsFft
set_option linter.all false

namespace Nissa.Topo
open Nissa.Lx Nissa.A2A Nissa.Layouts Nissa.Fft

/-! ### Specification -/

/-- sum of two points of the periodic lattice -/
def addL (L x y : Coords) : Coords := fun mu => (x mu + y mu) % L mu

/-- difference of two points of the periodic lattice -/
def subL (L x y : Coords) : Coords := fun mu => (x mu + (L mu - y mu)) % L mu

/-- correlation of a field with itself, averaged on the lattice -/
noncomputable def correlation (L : Coords) (q : Coords → ℝ) (x : Coords) : ℝ := (∑ y ∈ box L, q y * q (addL L y x)) / (box L).card

/-- convolution of a field with itself, averaged on the lattice -/
noncomputable def convolution (L : Coords) (q : Coords → ℝ) (x : Coords) : ℝ := (∑ y ∈ box L, q y * q (subL L x y)) / (box L).card

/-! ### Fourier transform on the box -/

/-- product of the phases -/
noncomputable def chi (L : Coords) (sign : Int) (p x : Coords) : ℂ := ∏ mu, root sign (L mu) ^ (p mu * x mu)

theorem sum_box4 {M : Type} [AddCommMonoid M] (L : Coords) (F : Coords → M) :
    ∑ x3 ∈ Finset.range (L 3), ∑ x2 ∈ Finset.range (L 2), ∑ x1 ∈ Finset.range (L 1), ∑ x0 ∈ Finset.range (L 0), F ![x0, x1, x2, x3] = ∑ x ∈ box L, F x := by
  rw [← Finset.sum_product' (f := fun x3 x2 => ∑ x1 ∈ Finset.range (L 1), ∑ x0 ∈ Finset.range (L 0), F ![x0, x1, x2, x3]),
    ← Finset.sum_product' (f := fun (p : Nat × Nat) x1 => ∑ x0 ∈ Finset.range (L 0), F ![x0, x1, p.2, p.1]),
    ← Finset.sum_product' (f := fun (p : (Nat × Nat) × Nat) x0 => F ![x0, p.2, p.1.2, p.1.1])]
  refine Finset.sum_bij' (i := fun p _ => ![p.2, p.1.2, p.1.1.2, p.1.1.1]) (j := fun c _ => (((c 3, c 2), c 1), c 0)) ?_ ?_ ?_ ?_ ?_
  · intro p hp
    simp only [Finset.mem_product, Finset.mem_range] at hp
    rw [mem_box]; intro mu; fin_cases mu <;> simp [hp]
  · intro c hc
    rw [mem_box] at hc
    simp only [Finset.mem_product, Finset.mem_range]
    exact ⟨⟨⟨hc 3, hc 2⟩, hc 1⟩, hc 0⟩
  · intro p _; simp
  · intro c _; funext mu; fin_cases mu <;> rfl
  · intro p _; rfl

theorem dftAll_box {ncpp : Nat} (L : Coords) (sign : Int) (phi : Coords → Site ncpp) (p : Coords) (k : Fin ncpp) :
    dftAll L sign phi p k = ∑ x ∈ box L, chi L sign p x * phi x k := by
  rw [← sum_box4 L (fun x => chi L sign p x * phi x k)]
  unfold dftAll chi
  refine Finset.sum_congr rfl (fun x3 _ => Finset.sum_congr rfl (fun x2 _ => Finset.sum_congr rfl (fun x1 _ => Finset.sum_congr rfl (fun x0 _ => ?_))))
  rw [Fin.prod_univ_four]
  rfl

theorem box_card (L : Coords) : (box L).card = points L (fun _ => true) := by
  unfold box points
  rw [Fintype.card_piFinset, Fin.prod_univ_four]
  simp [Finset.card_range]

theorem box_card_pos {L : Coords} (hL : ∀ mu, 0 < L mu) : 0 < (box L).card :=
  Finset.card_pos.2 ⟨fun _ => 0, mem_box.2 hL⟩

/-- orthogonality of three phases, one direction -/
theorem ortho3 (n : Nat) (hn : 0 < n) (x y z : Nat) (hx : x < n) (hy : y < n) (hz : z < n) :
    ∑ k ∈ Finset.range n, root (-1) n ^ (x * k) * (root 1 n ^ (k * y) * root 1 n ^ (k * z)) = if z = (x + (n - y)) % n then (n : ℂ) else 0 := by
  obtain ⟨hw, hinv⟩ := root_pow 1 (Or.inl rfl) n hn
  have e : ∀ k, root 1 n ^ (k * y) * root 1 n ^ (k * z) = root 1 n ^ (k * ((y + z) % n)) := by
    intro k
    rw [← pow_add, ← Nat.mul_add]
    rw [Nat.mul_comm k, Nat.mul_comm k, pow_mul, pow_mul]
    congr 1
    conv_lhs => rw [← Nat.div_add_mod (y + z) n, pow_add, pow_mul, hw.pow_eq_one, one_pow, one_mul]
  rw [Finset.sum_congr rfl (fun k _ => by rw [e k]), show root (-1) n = (root 1 n)⁻¹ from hinv, orthogonality _ n hn hw _ x (Nat.mod_lt _ hn) hx]
  have : ((y + z) % n = x) ↔ z = (x + (n - y)) % n := by
    constructor
    · intro h
      rcases Nat.lt_or_ge (y + z) n with h1 | h1
      · rw [Nat.mod_eq_of_lt h1] at h
        rw [show x + (n - y) = z + n by omega, Nat.add_mod_right, Nat.mod_eq_of_lt hz]
      · rw [Nat.mod_eq_sub_mod h1, Nat.mod_eq_of_lt (by omega)] at h
        rw [show x + (n - y) = z by omega, Nat.mod_eq_of_lt hz]
    · intro h
      rcases Nat.lt_or_ge (x + (n - y)) n with h1 | h1
      · rw [Nat.mod_eq_of_lt h1] at h
        rw [show y + z = x + n by omega, Nat.add_mod_right, Nat.mod_eq_of_lt hx]
      · rw [Nat.mod_eq_sub_mod h1, Nat.mod_eq_of_lt (by omega)] at h
        rw [show y + z = x by omega, Nat.mod_eq_of_lt hx]
  by_cases h : (y + z) % n = x
  · rw [if_pos h, if_pos (this.1 h)]
  · rw [if_neg h, if_neg (fun h' => h (this.2 h'))]

theorem ortho_box (L : Coords) (hL : ∀ mu, 0 < L mu) (x y z : Coords) (hx : x ∈ box L) (hy : y ∈ box L) (hz : z ∈ box L) :
    ∑ p ∈ box L, chi L (-1) x p * (chi L 1 p y * chi L 1 p z) = if z = subL L x y then ((box L).card : ℂ) else 0 := by
  rw [mem_box] at hx hy hz
  have e : ∀ p : Coords, chi L (-1) x p * (chi L 1 p y * chi L 1 p z) = ∏ mu, root (-1) (L mu) ^ (x mu * p mu) * (root 1 (L mu) ^ (p mu * y mu) * root 1 (L mu) ^ (p mu * z mu)) := by
    intro p; unfold chi; rw [← Finset.prod_mul_distrib, ← Finset.prod_mul_distrib]
  rw [Finset.sum_congr rfl (fun p _ => e p)]
  unfold box
  rw [← Finset.prod_univ_sum (fun mu => Finset.range (L mu)) (fun mu k => root (-1) (L mu) ^ (x mu * k) * (root 1 (L mu) ^ (k * y mu) * root 1 (L mu) ^ (k * z mu)))]
  rw [Finset.prod_congr rfl (fun mu _ => ortho3 (L mu) (hL mu) (x mu) (y mu) (z mu) (hx mu) (hy mu) (hz mu))]
  by_cases h : z = subL L x y
  · rw [if_pos h, Fintype.card_piFinset]
    push_cast
    refine Finset.prod_congr rfl (fun mu _ => ?_)
    rw [if_pos (show z mu = (x mu + (L mu - y mu)) % L mu from congrFun h mu), Finset.card_range]
  · rw [if_neg h]
    have : ∃ mu, z mu ≠ subL L x y mu := by by_contra h'; push_neg at h'; exact h (funext h')
    obtain ⟨mu, hmu⟩ := this
    exact Finset.prod_eq_zero (Finset.mem_univ mu) (if_neg hmu)

theorem subL_mem {L : Coords} (hL : ∀ mu, 0 < L mu) (x y : Coords) : subL L x y ∈ box L := mem_box.2 (fun mu => Nat.mod_lt _ (hL mu))

theorem addL_mem {L : Coords} (hL : ∀ mu, 0 < L mu) (x y : Coords) : addL L x y ∈ box L := mem_box.2 (fun mu => Nat.mod_lt _ (hL mu))

theorem square_transform (L : Coords) (hL : ∀ mu, 0 < L mu) (q : Coords → ℝ) (x : Coords) (hx : x ∈ box L) :
    ∑ p ∈ box L, chi L (-1) x p * ((∑ y ∈ box L, chi L 1 p y * (q y : ℂ)) / ((box L).card : ℂ) * ((∑ y ∈ box L, chi L 1 p y * (q y : ℂ)) / ((box L).card : ℂ))) =
      (convolution L q x : ℂ) := by
  have hV : ((box L).card : ℂ) ≠ 0 := Nat.cast_ne_zero.2 (box_card_pos hL).ne'
  have e : ∀ p ∈ box L, chi L (-1) x p * ((∑ y ∈ box L, chi L 1 p y * (q y : ℂ)) / ((box L).card : ℂ) * ((∑ y ∈ box L, chi L 1 p y * (q y : ℂ)) / ((box L).card : ℂ))) =
      ∑ y ∈ box L, ∑ z ∈ box L, (q y * q z / ((box L).card : ℂ) / ((box L).card : ℂ)) * (chi L (-1) x p * (chi L 1 p y * chi L 1 p z)) := by
    intro p _
    rw [div_mul_div_comm, Finset.sum_mul_sum, Finset.sum_div, Finset.mul_sum]
    refine Finset.sum_congr rfl (fun y _ => ?_)
    rw [Finset.sum_div, Finset.mul_sum]
    refine Finset.sum_congr rfl (fun z _ => ?_)
    field_simp
  rw [Finset.sum_congr rfl e, Finset.sum_comm]
  unfold convolution
  push_cast
  rw [Finset.sum_div]
  refine Finset.sum_congr rfl (fun y hy => ?_)
  rw [Finset.sum_comm]
  rw [Finset.sum_congr rfl (fun z hz => by rw [← Finset.mul_sum, ortho_box L hL x y z hx hy hz])]
  rw [Finset.sum_congr rfl (fun z _ => by rw [mul_ite, mul_zero])]
  rw [Finset.sum_ite_eq' (box L) (subL L x y) (fun z => _), if_pos (subL_mem hL x y)]
  field_simp

/-! ### The correlator computed -/

/-- C69: the field computed at the point x is the average on the lattice of q(y) q(x-y) -/
theorem C69_corr_convolution (g : Geo) (ok : g.Ok) (X : Nat → Nat → Coords) (hX : CoordTable g X) (hd : ∀ mu, DirOk g X mu)
    (q : Coords → ℝ) (charge : Nat → Nat → ℝ) (hq : Represents g X q charge) :
    (∃ charge', ComputeTopoCorr g X false charge charge') ∧
    ∀ charge', ComputeTopoCorr g X false charge charge' → Represents g X (convolution g.L q) charge' := by
  have hq' : Represents g X (fun c (_ : Fin 1) => (q c : ℂ)) (fun r i (_ : Fin 1) => (charge r i : ℂ)) := by
    intro r i hr hi; funext k; beta_reduce; rw [hq r i hr hi]
  obtain ⟨⟨f1, h1⟩, h2⟩ := C36_fft4d_partial g ok X hX (fun _ => true) 1 true (fun mu _ => hd mu) _ _ hq'
  have hsq : ∀ f1, Fft4d g X (fun _ => true) (1 : Int) true (fun r i (_ : Fin 1) => (charge r i : ℂ)) f1 →
      Represents g X (fun p (k : Fin 1) => dftSel g.L 1 (fun _ => true) (fun c (_ : Fin 1) => (q c : ℂ)) p k / (points g.L (fun _ => true) : ℂ) *
        (dftSel g.L 1 (fun _ => true) (fun c (_ : Fin 1) => (q c : ℂ)) p k / (points g.L (fun _ => true) : ℂ))) (fun r i k => f1 r i k * f1 r i k) := by
    intro f1 h r i hr hi
    have := h2 f1 h r i hr hi
    funext k
    beta_reduce
    rw [this]; simp only [if_true]
  refine ⟨?_, ?_⟩
  · obtain ⟨⟨f2, h3⟩, -⟩ := C36_fft4d_partial g ok X hX (backDirs false) (-1) false (fun mu _ => hd mu) _ _ (hsq f1 h1)
    exact ⟨_, f1, f2, h1, h3, rfl⟩
  · rintro charge' ⟨f1, f2, h1, h3, rfl⟩ r i hr hi
    have h4 := (C36_fft4d_partial g ok X hX (backDirs false) (-1) false (fun mu _ => hd mu) _ _ (hsq f1 h1)).2 f2 h3 r i hr hi
    have hc := (coordTable_of g ok X hX r i hr hi).1
    have hb : backDirs false = fun _ => true := by funext mu; rfl
    show (f2 r i 0).re = _
    rw [h4]
    simp only [Bool.false_eq_true, if_false]
    rw [hb, C36_all_directions, dftAll_box]
    have := square_transform g.L (fun mu => L_pos ok mu) q (X r i) (mem_box.2 hc)
    rw [C36_all_directions]
    simp only [dftAll_box]
    rw [← box_card, this, Complex.ofReal_re]

theorem dftSel_space (L : Coords) (phi : Coords → Site 1) : dftSel L 1 (fun _ => true) phi = dft L 1 0 (dftSel L 1 (fun mu => mu ≠ 0) phi) := by
  have h1 : dftSel L 1 (fun mu => mu ≠ 0) phi = dft L 1 3 (dft L 1 2 (dft L 1 1 phi)) := by
    unfold dftSel dirs
    simp only [List.foldl_cons, List.foldl_nil, show (decide ((0 : Dir) ≠ 0)) = false by decide, show (decide ((1 : Dir) ≠ 0)) = true by decide,
      show (decide ((2 : Dir) ≠ 0)) = true by decide, show (decide ((3 : Dir) ≠ 0)) = true by decide, if_true, Bool.false_eq_true, if_false]
  have h2 : dftSel L 1 (fun _ => true) phi = dft L 1 3 (dft L 1 2 (dft L 1 1 (dft L 1 0 phi))) := by
    unfold dftSel dirs
    simp only [List.foldl_cons, List.foldl_nil, if_true]
  rw [h1, h2, dft_comm L 1 1 1 0 (by decide), dft_comm L 1 1 2 0 (by decide), dft_comm L 1 1 3 0 (by decide)]

theorem dft_square (n : Nat) (hn : 0 < n) (V : ℂ) (F : Nat → ℂ) (t : Nat) (ht : t < n) :
    ∑ k ∈ Finset.range n, root (-1) n ^ (t * k) * ((∑ x ∈ Finset.range n, root 1 n ^ (k * x) * F x) / V * ((∑ x ∈ Finset.range n, root 1 n ^ (k * x) * F x) / V)) =
      n / V ^ 2 * ∑ s ∈ Finset.range n, F s * F ((t + (n - s)) % n) := by
  have e : ∀ k ∈ Finset.range n, root (-1) n ^ (t * k) * ((∑ x ∈ Finset.range n, root 1 n ^ (k * x) * F x) / V * ((∑ x ∈ Finset.range n, root 1 n ^ (k * x) * F x) / V)) =
      ∑ y ∈ Finset.range n, ∑ z ∈ Finset.range n, (F y * F z / V ^ 2) * (root (-1) n ^ (t * k) * (root 1 n ^ (k * y) * root 1 n ^ (k * z))) := by
    intro k _
    rw [div_mul_div_comm, Finset.sum_mul_sum, Finset.sum_div, Finset.mul_sum]
    refine Finset.sum_congr rfl (fun y _ => ?_)
    rw [Finset.sum_div, Finset.mul_sum]
    refine Finset.sum_congr rfl (fun z _ => ?_)
    ring
  rw [Finset.sum_congr rfl e, Finset.sum_comm, Finset.mul_sum]
  refine Finset.sum_congr rfl (fun y hy => ?_)
  rw [Finset.sum_comm]
  rw [Finset.sum_congr rfl (fun z hz => by rw [← Finset.mul_sum, ortho3 n hn t y z ht (Finset.mem_range.1 hy) (Finset.mem_range.1 hz), mul_ite, mul_zero])]
  rw [Finset.sum_ite_eq' (Finset.range n) ((t + (n - y)) % n) (fun z => _), if_pos (Finset.mem_range.2 (Nat.mod_lt _ hn))]
  ring

/-- C69: in a spatial-momentum representation the transform back is done only in time, and the field computed at time t and momentum p is the
real part of L0/V^2 sum_s Q(s,p) Q(t-s,p), where Q(s,p) is the sum on the space of the charge times the phase -/
theorem C69_corr_time_momentum (g : Geo) (ok : g.Ok) (X : Nat → Nat → Coords) (hX : CoordTable g X) (hd : ∀ mu, DirOk g X mu)
    (q : Coords → ℝ) (charge : Nat → Nat → ℝ) (hq : Represents g X q charge) :
    (∃ charge', ComputeTopoCorr g X true charge charge') ∧
    ∀ charge', ComputeTopoCorr g X true charge charge' → Represents g X (fun c =>
      let Q : Coords → ℂ := fun c => dftSel g.L 1 (fun mu => mu ≠ 0) (fun c (_ : Fin 1) => (q c : ℂ)) c 0
      (g.L 0 / ((box g.L).card : ℂ) ^ 2 * ∑ s ∈ Finset.range (g.L 0), Q (Function.update c 0 s) * Q (Function.update c 0 ((c 0 + (g.L 0 - s)) % g.L 0))).re) charge' := by
  have hq' : Represents g X (fun c (_ : Fin 1) => (q c : ℂ)) (fun r i (_ : Fin 1) => (charge r i : ℂ)) := by
    intro r i hr hi; funext k; beta_reduce; rw [hq r i hr hi]
  obtain ⟨⟨f1, h1⟩, h2⟩ := C36_fft4d_partial g ok X hX (fun _ => true) 1 true (fun mu _ => hd mu) _ _ hq'
  have hsplit := dftSel_space g.L (fun c (_ : Fin 1) => (q c : ℂ))
  generalize dftSel g.L 1 (fun mu => mu ≠ 0) (fun c (_ : Fin 1) => (q c : ℂ)) = Q at hsplit ⊢
  have hsq : ∀ f1, Fft4d g X (fun _ => true) (1 : Int) true (fun r i (_ : Fin 1) => (charge r i : ℂ)) f1 →
      Represents g X (fun p (k : Fin 1) => dft g.L 1 0 Q p k / (points g.L (fun _ => true) : ℂ) *
        (dft g.L 1 0 Q p k / (points g.L (fun _ => true) : ℂ))) (fun r i k => f1 r i k * f1 r i k) := by
    intro f1 h r i hr hi
    have := h2 f1 h r i hr hi
    funext k
    beta_reduce
    rw [this]; simp only [if_true, hsplit]
  refine ⟨?_, ?_⟩
  · obtain ⟨⟨f2, h3⟩, -⟩ := C36_fft4d_partial g ok X hX (backDirs true) (-1) false (fun mu _ => hd mu) _ _ (hsq f1 h1)
    exact ⟨_, f1, f2, h1, h3, rfl⟩
  · rintro charge' ⟨f1, f2, h1, h3, rfl⟩ r i hr hi
    have h4 := (C36_fft4d_partial g ok X hX (backDirs true) (-1) false (fun mu _ => hd mu) _ _ (hsq f1 h1)).2 f2 h3 r i hr hi
    have hc := (coordTable_of g ok X hX r i hr hi).1
    show (f2 r i 0).re = _
    rw [h4]
    simp only [Bool.false_eq_true, if_false]
    have hb : ∀ phi : Coords → Site 1, dftSel g.L (-1) (backDirs true) phi = dft g.L (-1) 0 phi := fun phi => rfl
    rw [hb, box_card]
    congr 1
    generalize ((points g.L (fun _ => true) : Nat) : ℂ) = V
    have := dft_square (g.L 0) (L_pos ok 0) V (fun x => Q (Function.update (X r i) 0 x) 0) (X r i 0) (hc 0)
    unfold dft
    simp only [Function.update_self, Function.update_idem]
    exact this

theorem subL_subL {L : Coords} (x y : Coords) (hx : x ∈ box L) (hy : y ∈ box L) : subL L x (subL L x y) = y := by
  rw [mem_box] at hx hy
  funext mu
  unfold subL
  have := hx mu; have := hy mu
  rcases Nat.lt_or_ge (x mu + (L mu - y mu)) (L mu) with h | h
  · rw [Nat.mod_eq_of_lt h, show x mu + (L mu - (x mu + (L mu - y mu))) = y mu by omega, Nat.mod_eq_of_lt (hy mu)]
  · rw [Nat.mod_eq_sub_mod h, Nat.mod_eq_of_lt (show x mu + (L mu - y mu) - L mu < L mu by omega),
      show x mu + (L mu - (x mu + (L mu - y mu) - L mu)) = y mu + L mu by omega, Nat.add_mod_right, Nat.mod_eq_of_lt (hy mu)]

theorem subL_addL {L : Coords} (x y : Coords) (hx : x ∈ box L) (hy : y ∈ box L) : subL L (addL L x y) y = x ∧ addL L (subL L x y) y = x := by
  rw [mem_box] at hx hy
  constructor
  · funext mu
    unfold subL addL
    have := hx mu; have := hy mu
    rcases Nat.lt_or_ge (x mu + y mu) (L mu) with h | h
    · rw [Nat.mod_eq_of_lt h, show x mu + y mu + (L mu - y mu) = x mu + L mu by omega, Nat.add_mod_right, Nat.mod_eq_of_lt (hx mu)]
    · rw [Nat.mod_eq_sub_mod h, Nat.mod_eq_of_lt (show x mu + y mu - L mu < L mu by omega), show x mu + y mu - L mu + (L mu - y mu) = x mu by omega, Nat.mod_eq_of_lt (hx mu)]
  · funext mu
    unfold subL addL
    beta_reduce
    have := hx mu; have := hy mu
    rcases Nat.lt_or_ge (x mu + (L mu - y mu)) (L mu) with h | h
    · rw [Nat.mod_eq_of_lt h, show x mu + (L mu - y mu) + y mu = x mu + L mu by omega, Nat.add_mod_right, Nat.mod_eq_of_lt (hx mu)]
    · rw [Nat.mod_eq_sub_mod h, Nat.mod_eq_of_lt (show x mu + (L mu - y mu) - L mu < L mu by omega), show x mu + (L mu - y mu) - L mu + y mu = x mu by omega, Nat.mod_eq_of_lt (hx mu)]

/-- C69: the sum of what is computed, on all the sites of all the ranks, is the square of the total charge over the volume -/
theorem C69_corr_sum (g : Geo) (ok : g.Ok) (X : Nat → Nat → Coords) (hX : CoordTable g X) (hd : ∀ mu, DirOk g X mu)
    (q : Coords → ℝ) (charge charge' : Nat → Nat → ℝ) (hq : Represents g X q charge) (h : ComputeTopoCorr g X false charge charge') :
    ∑ r ∈ Finset.range g.nranks, ∑ i ∈ Finset.range g.locVol, charge' r i = (∑ c ∈ box g.L, q c) ^ 2 / (box g.L).card := by
  have hr := (C69_corr_convolution g ok X hX hd q charge hq).2 charge' h
  have e : ∀ r ∈ Finset.range g.nranks, ∑ i ∈ Finset.range g.locVol, charge' r i = ∑ i ∈ Finset.range g.locVol, convolution g.L q (X r i) := fun r hr' =>
    Finset.sum_congr rfl (fun i hi => hr r i (Finset.mem_range.1 hr') (Finset.mem_range.1 hi))
  rw [Finset.sum_congr rfl e, sum_sites g ok X hX (convolution g.L q)]
  unfold convolution
  rw [← Finset.sum_div, Finset.sum_comm, sq, Finset.sum_mul_sum]
  congr 1
  refine Finset.sum_congr rfl (fun y hy => ?_)
  rw [← Finset.mul_sum, ← Finset.mul_sum]
  congr 1
  refine Finset.sum_bij' (i := fun x _ => subL g.L x y) (j := fun z _ => addL g.L z y) (fun x _ => subL_mem (fun mu => L_pos ok mu) x y)
    (fun z _ => addL_mem (fun mu => L_pos ok mu) z y) (fun x hx => (subL_addL x y hx hy).2) (fun z hz => (subL_addL z y hz hy).1) (fun _ _ => rfl)

/-- the opposite point -/
def negL (L x : Coords) : Coords := subL L (fun _ => 0) x

/-- C69, full statement: what is computed is the correlation of the charge. Proved only for charges even under the reflection of all the
coordinates: see C69_violated_corr. -/
theorem C69_corr_partial (g : Geo) (ok : g.Ok) (X : Nat → Nat → Coords) (hX : CoordTable g X) (hd : ∀ mu, DirOk g X mu)
    (q : Coords → ℝ) (hev : ∀ c ∈ box g.L, q (negL g.L c) = q c) (charge charge' : Nat → Nat → ℝ) (hq : Represents g X q charge)
    (h : ComputeTopoCorr g X false charge charge') : Represents g X (correlation g.L q) charge' := by
  intro r i hr hi
  rw [(C69_corr_convolution g ok X hX hd q charge hq).2 charge' h r i hr hi]
  have hc := mem_box.2 (coordTable_of g ok X hX r i hr hi).1
  have hL : ∀ mu, 0 < g.L mu := fun mu => L_pos ok mu
  have h0 : (fun _ => 0 : Coords) ∈ box g.L := mem_box.2 hL
  unfold convolution correlation
  congr 1
  refine Finset.sum_bij' (i := fun y _ => negL g.L y) (j := fun y _ => negL g.L y) (fun y _ => subL_mem hL _ y) (fun y _ => subL_mem hL _ y)
    (fun y hy => subL_subL _ y h0 hy) (fun y hy => subL_subL _ y h0 hy) (fun y hy => ?_)
  rw [hev y hy]
  have : addL g.L (negL g.L y) (X r i) = subL g.L (X r i) y := by
    rw [mem_box] at hc hy
    funext mu
    unfold negL addL subL
    rw [Nat.mod_add_mod]
    congr 1; beta_reduce; omega
  rw [this]

/-- C69 does not hold in general: on every lattice with at least three times, the correlation at distance zero of a charge of one unit in a
single point is 1/V, but zero is computed -/
theorem C69_violated_corr (g : Geo) (ok : g.Ok) (X : Nat → Nat → Coords) (hX : CoordTable g X) (hd : ∀ mu, DirOk g X mu) (h3 : 3 ≤ g.L 0) :
    ∃ q : Coords → ℝ, ∃ charge charge', Represents g X q charge ∧ ComputeTopoCorr g X false charge charge' ∧
      ∃ r i, r < g.nranks ∧ i < g.locVol ∧ X r i = (fun _ => 0) ∧ charge' r i = 0 ∧ correlation g.L q (X r i) = 1 / (box g.L).card := by
  have hL : ∀ mu, 0 < g.L mu := fun mu => L_pos ok mu
  let e : Coords := Function.update (fun _ => 0) 0 1
  have he : e ∈ box g.L := mem_box.2 (fun mu => by
    by_cases h : mu = 0
    · subst h; simp only [e, Function.update_self]; omega
    · simp only [e, Function.update_of_ne h]; exact hL mu)
  let q : Coords → ℝ := fun c => if c = e then 1 else 0
  have hq : Represents g X q (fun r i => q (X r i)) := fun r i _ _ => rfl
  obtain ⟨⟨charge', hc⟩, hrep⟩ := C69_corr_convolution g ok X hX hd q _ hq
  have h0 : ∀ mu, (fun _ => 0 : Coords) mu < g.L mu := hL
  obtain ⟨a, b, -⟩ := C02_rank_and_loclx g ok _ h0
  have hX0 := coordTable_at g ok X hX _ h0
  refine ⟨q, _, charge', hq, hc, _, _, a, b, hX0, ?_, ?_⟩
  · rw [hrep charge' hc _ _ a b, hX0]
    unfold convolution
    rw [Finset.sum_eq_zero, zero_div]
    intro y _
    by_cases hy : y = e
    · have : subL g.L (fun _ => 0) y ≠ e := by
        intro h
        have := congrFun h 0
        rw [hy] at this
        simp only [subL, e, Function.update_self] at this
        rw [Nat.mod_eq_of_lt (by omega)] at this
        omega
      simp only [q, if_neg this, mul_zero]
    · simp only [q, if_neg hy, zero_mul]
  · rw [hX0]
    unfold correlation
    congr 1
    rw [Finset.sum_eq_single e]
    · have : addL g.L e (fun _ => 0) = e := by
        funext mu; unfold addL; rw [Nat.add_zero, Nat.mod_eq_of_lt (mem_box.1 he mu)]
      rw [this]; simp [q]
    · intro y _ hy; simp only [q, if_neg hy, zero_mul]
    · intro h; exact absurd he h

end Nissa.Topo
