import Verif.Ib.Source

/-! # C74: the sources, formulas -/

set_option linter.all false

namespace Nissa.Src
open Nissa.Lx Nissa.Sten Nissa.Su3f Nissa.Gauge Nissa.Gamma Nissa.StD Nissa.Wilson Nissa.Contr Nissa.Vertex Nissa.Sitmo Matrix Complex

noncomputable section

/-! ### Specification -/

/-- how far a point is after the source along a direction, on the torus -/
def dist (L ori c : Coords) (mu : Dir) : Nat := (c mu + (L mu - ori mu)) % L mu

/-- the points of a source: all, or those at a given distance in time -/
def onSlice (L ori : Coords) (tins : Int) (c : Coords) : Prop := tins = -1 ∨ (dist L ori c 0 : Int) = tins

instance (L ori : Coords) (tins : Int) (c : Coords) : Decidable (onSlice L ori tins c) := by unfold onSlice; infer_instance

/-- the random sign got from a number between 0 and 1 -/
def pm (u : ℚ) : ℝ := if u < 1 / 2 then -1 else 1

/-- the noise got from two numbers between 0 and 1 -/
def specNoise (nt : Rnd) (u v : ℚ) : ℂ :=
  match nt with
  | .allPlusOne => 1
  | .allMinusOne => -1
  | .z2 => (pm u : ℂ)
  | .z4 => ((pm u : ℂ) + I * (pm v : ℂ)) / (√2 : ℝ)
  | _ => 0

/-- the noise of a component at a point: the two numbers are those numbered after spin and colour, at the number of the point in the whole lattice -/
def eta (L : Coords) (nt : Rnd) (draw : Nat → Nat → ℚ) (c : Coords) (id : Fin 4) (ic : Fin 3) : ℂ :=
  specNoise nt (draw (lxOfCoord c L) (6 * id.val + 2 * ic.val)) (draw (lxOfCoord c L) (6 * id.val + 2 * ic.val + 1))

/-- a stochastic source of spin `sp` and colour `col`: noise on the slice, and, if diluted, in one spin (one colour) only, the noise being the same for all the spins (colours) -/
def specSource (dilSpi dilCol : Bool) (L ori : Coords) (tins : Int) (nt : Rnd) (draw : Nat → Nat → ℚ) (sp col : Nat) (c : Coords) : SpCol := fun id ic =>
  if onSlice L ori tins c ∧ (dilSpi = true → id.val = sp) ∧ (dilCol = true → ic.val = col) then eta L nt draw c (if dilSpi then 0 else id) (if dilCol then 0 else ic) else 0

/-- noises that the program has -/
def known (nt : Rnd) : Prop := nt = .allPlusOne ∨ nt = .allMinusOne ∨ nt = .z2 ∨ nt = .z4

instance (nt : Rnd) : Decidable (known nt) := by unfold known; infer_instance

/-! ### Formulas -/

theorem dist_spec {L ori c : Coords} {mu : Dir} (ho : ori mu < L mu) (hc : c mu < L mu) : dist L ori c mu < L mu ∧ (ori mu + dist L ori c mu) % L mu = c mu := by
  unfold dist
  refine ⟨Nat.mod_lt _ (by omega), ?_⟩
  rw [Nat.add_mod_mod, show ori mu + (c mu + (L mu - ori mu)) = c mu + L mu by omega, Nat.add_mod_right, Nat.mod_eq_of_lt hc]

theorem dist_zero {L ori c : Coords} {mu : Dir} (ho : ori mu < L mu) (hc : c mu < L mu) : dist L ori c mu = 0 ↔ c mu = ori mu := by
  constructor
  · intro h
    have := (dist_spec ho hc).2
    rw [h, Nat.add_zero, Nat.mod_eq_of_lt ho] at this
    exact this.symm
  · intro h
    unfold dist
    rw [h, show ori mu + (L mu - ori mu) = L mu by omega, Nat.mod_self]

theorem rel_eq {g : Geo} {ori : Coords} {mu : Dir} (ho : ori mu < g.L mu) (c : Coords) : rel_coord_of_glb_coord g ori (c mu) mu = (dist g.L ori c mu : Int) := by
  unfold rel_coord_of_glb_coord dist
  rw [Int.tmod_eq_emod_of_nonneg (by omega)]
  push_cast
  rw [Int.ofNat_sub (by omega)]
  congr 1
  ring

theorem rel_loclx {g : Geo} {jc ori : Coords} {rk i : Nat} {c : Coords} (h : glbCoordOfLoclx g (coordOfLx rk g.R) i = some c) {mu : Dir} (ho : ori mu < g.L mu) :
    rel_coord_of_loclx g jc ori rk i mu = (dist g.L ori c mu : Int) := by
  unfold rel_coord_of_loclx
  rw [h]
  exact rel_eq ho c

theorem sign_pm {u : ℚ} (h : 0 ≤ u ∧ u < 1) : ((sign u : Int) : ℝ) = pm u := by
  unfold pm
  rcases C34_sign u h.1 h.2 with ⟨a, b⟩ | ⟨a, b⟩
  · rw [a, if_pos b]; norm_num
  · rw [a, if_neg (not_lt.2 b)]; norm_num

theorem noiseOf_spec (nt : Rnd) {u v : ℚ} (hu : 0 ≤ u ∧ u < 1) (hv : 0 ≤ v ∧ v < 1) : (known nt → noiseOf nt (u, v) = some (specNoise nt u v)) ∧ (¬ known nt → noiseOf nt (u, v) = none) := by
  cases nt <;> simp [known, noiseOf, specNoise, sign_pm hu, sign_pm hv]
  · rfl
  · apply Complex.ext
    · simp [div_eq_mul_inv, mul_add, add_mul, ← Complex.ofReal_inv]
    · simp [div_eq_mul_inv, mul_add, add_mul, ← Complex.ofReal_inv]

theorem foldlM_some {A B : Type} (F : B → A → Option B) (f : B → A → B) (l : List A) (h : ∀ a ∈ l, ∀ b, F b a = some (f b a)) (b : B) : l.foldlM F b = some (l.foldl f b) := by
  induction l generalizing b with
  | nil => rfl
  | cons a l ih =>
    rw [List.foldlM_cons, h a (by simp), List.foldl_cons]
    exact ih (fun a' ha b => h a' (by simp [ha]) b) (f b a)

theorem fold_update {K : Type} [DecidableEq K] {V : Type} (f : K → V) (l : List K) (b : K → V) (k : K) :
    l.foldl (fun b k => Function.update b k (f k)) b k = if k ∈ l then f k else b k := by
  induction l generalizing b with
  | nil => simp
  | cons a l ih =>
    rw [List.foldl_cons, ih]
    by_cases h : k ∈ l
    · simp [h]
    · by_cases e : k = a
      · subst e; simp
      · simp [h, e]

theorem fold_inner (f : Fin 3 → ℂ) (id : Fin 4) (l : List (Fin 3)) (b : SpCol) :
    l.foldl (fun (b : SpCol) ic => Function.update b id (Function.update (b id) ic (f ic))) b = Function.update b id (fun ic => if ic ∈ l then f ic else b id ic) := by
  have : ∀ b : SpCol, l.foldl (fun (b : SpCol) ic => Function.update b id (Function.update (b id) ic (f ic))) b = Function.update b id (l.foldl (fun b ic => Function.update b ic (f ic)) (b id)) := by
    induction l with
    | nil => intro b; simp
    | cons a l ih =>
      intro b
      rw [List.foldl_cons, ih, List.foldl_cons]
      simp
  rw [this]
  congr 1
  funext ic
  exact fold_update f l (b id) ic

theorem fold_outer (f : Fin 4 → Fin 3 → ℂ) (l1 : List (Fin 4)) (l2 : List (Fin 3)) (b : SpCol) (id : Fin 4) (ic : Fin 3) :
    l1.foldl (fun (b : SpCol) id => l2.foldl (fun (b : SpCol) ic => Function.update b id (Function.update (b id) ic (f id ic))) b) b id ic = if id ∈ l1 ∧ ic ∈ l2 then f id ic else b id ic := by
  simp only [fold_inner]
  induction l1 generalizing b with
  | nil => simp
  | cons a l ih =>
    rw [List.foldl_cons, ih]
    by_cases e : id = a
    · subst e
      simp
      by_cases h : ic ∈ l2 <;> simp [h]
    · simp [e]

theorem take_spin (d : Bool) (id : Fin 4) : id ∈ (List.finRange 4).take (if d then 1 else 4) ↔ (d = true → id = 0) := by
  cases d <;> revert id <;> decide

theorem take_col (d : Bool) (ic : Fin 3) : ic ∈ (List.finRange 3).take (if d then 1 else 3) ↔ (d = true → ic = 0) := by
  cases d <;> revert ic <;> decide

theorem glblx_site {g : Geo} (ok : g.Ok) {rk i : Nat} (hrk : rk < g.nranks) (hi : i < g.locVol) {c : Coords} (h : glbCoordOfLoclx g (coordOfLx rk g.R) i = some c) (hc : ∀ mu, c mu < g.L mu) :
    glblxOfLoclx g (coordOfLx rk g.R) i = some (lxOfCoord c g.L) := by
  have hs := GForce.rank_site ok hrk hi h
  have := (C02_rank_and_loclx g ok c hc).2.2.2.2
  rw [hs] at this
  exact this

section
variable {g : Geo} (ok : g.Ok)
include ok

/-- the site routine of a stochastic source -/
theorem siteSource_stoch (dilSpi dilCol : Bool) (jc : Coords) (ji : Nat) {ori : Coords} (ho : ori ∈ box g.L) (tins : Int) (nt : Rnd) (draw : Nat → Nat → ℚ)
    (hd : ∀ x i, 0 ≤ draw x i ∧ draw x i < 1) {rk i : Nat} (hrk : rk < g.nranks) (hi : i < g.locVol) {c : Coords} (h : glbCoordOfLoclx g (coordOfLx rk g.R) i = some c) (hc : c ∈ box g.L) :
    siteSource ⟨true, dilSpi, dilCol⟩ g jc ji ori tins nt draw rk i =
      if onSlice g.L ori tins c then
        if known nt then some (fun id ic => if (dilSpi = true → id = 0) ∧ (dilCol = true → ic = 0) then eta g.L nt draw c id ic else 0) else none
      else some 0 := by
  unfold siteSource
  simp only [if_true]
  rw [rel_loclx h (mem_box.1 ho 0)]
  by_cases hs : onSlice g.L ori tins c
  · rw [if_pos hs]
    unfold onSlice at hs
    rw [if_pos hs, glblx_site ok hrk hi h (mem_box.1 hc)]
    simp only [Option.getD_some]
    by_cases hk : known nt
    · rw [if_pos hk]
      have e : ∀ (id : Fin 4) (ic : Fin 3), noiseOf nt (draw (lxOfCoord c g.L) ((id.val * 3 + ic.val) * 2), draw (lxOfCoord c g.L) ((id.val * 3 + ic.val) * 2 + 1)) = some (eta g.L nt draw c id ic) := by
        intro id ic
        rw [(noiseOf_spec nt (hd _ _) (hd _ _)).1 hk]
        unfold eta
        rw [show (id.val * 3 + ic.val) * 2 = 6 * id.val + 2 * ic.val by ring]
      simp only [e]
      rw [foldlM_some _ (fun b id => ((List.finRange 3).take (if dilCol then 1 else 3)).foldl (fun (b : SpCol) ic => Function.update b id (Function.update (b id) ic (eta g.L nt draw c id ic))) b)]
      · congr 1
        funext id ic
        rw [fold_outer]
        simp only [take_spin, take_col]
        rfl
      · intro id _ b
        exact foldlM_some _ _ _ (fun ic _ b => rfl) b
    · rw [if_neg hk]
      have e : ∀ (id : Fin 4) (ic : Fin 3), noiseOf nt (draw (lxOfCoord c g.L) ((id.val * 3 + ic.val) * 2), draw (lxOfCoord c g.L) ((id.val * 3 + ic.val) * 2 + 1)) = none :=
        fun id ic => (noiseOf_spec nt (hd _ _) (hd _ _)).2 hk
      simp only [e]
      cases dilSpi <;> cases dilCol <;> rfl
  · rw [if_neg hs]
    unfold onSlice at hs
    rw [if_neg hs]

/-- the site routine of a point source -/
theorem siteSource_point (dilSpi dilCol : Bool) (jc : Coords) (ji : Nat) {ori : Coords} (ho : ori ∈ box g.L) (tins : Int) (nt : Rnd) (draw : Nat → Nat → ℚ)
    {rk i : Nat} {c : Coords} (h : glbCoordOfLoclx g (coordOfLx rk g.R) i = some c) (hc : c ∈ box g.L) :
    siteSource ⟨false, dilSpi, dilCol⟩ g jc ji ori tins nt draw rk i = some (fun id ic => if c = ori ∧ id = 0 ∧ ic = 0 then 1 else 0) := by
  unfold siteSource
  simp only [Bool.false_eq_true, if_false]
  congr 1
  have e : ((List.finRange 4).foldl (fun (o : Bool) mu => o && decide (rel_coord_of_loclx g jc ori rk i mu = 0)) true) = decide (c = ori) := by
    have e1 : ∀ mu : Dir, decide (rel_coord_of_loclx g jc ori rk i mu = 0) = decide (c mu = ori mu) := by
      intro mu
      rw [rel_loclx h (mem_box.1 ho mu)]
      have := dist_zero (mem_box.1 ho mu) (mem_box.1 hc mu)
      simp only [decide_eq_decide]
      omega
    simp only [e1]
    rw [Bool.eq_iff_iff, decide_eq_true_eq, funext_iff]
    show ((((true && decide (c 0 = ori 0)) && decide (c 1 = ori 1)) && decide (c 2 = ori 2)) && decide (c 3 = ori 3)) = true ↔ _
    simp only [Bool.true_and, Bool.and_eq_true, decide_eq_true_eq]
    constructor
    · rintro ⟨⟨⟨a, b⟩, d⟩, f⟩ mu
      fin_cases mu <;> assumption
    · intro h
      exact ⟨⟨⟨h 0, h 1⟩, h 2⟩, h 3⟩
  rw [e]
  funext id ic
  by_cases hco : c = ori
  · simp only [hco, decide_true, if_true, true_and]
    by_cases h1 : id = 0
    · subst h1
      by_cases h2 : ic = 0
      · subst h2; simp
      · simp [h2]
    · simp [h1]
  · simp [hco]

end

end

end Nissa.Src
