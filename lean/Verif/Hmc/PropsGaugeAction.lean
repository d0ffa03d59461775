import Verif.Hmc.PathCalc
import Verif.Dirac.PropsClover

/-! # The gauge action is the sum over the lattice of the closed loops -/

set_option linter.all false

namespace Nissa.GForce
open Nissa.Lx Nissa.Sten Nissa.Su3f Nissa.Gauge Nissa.Paths Nissa.LSm Nissa.Stap Matrix Complex

noncomputable section

/-- Specification: the unit square in the plane `mu`, `nu` -/
def sqLoop (mu nu : Dir) : List Move := [(mu, true), (nu, true), (mu, false), (nu, false)]

/-- Specification: the rectangle of sides 2 in the direction `nu` and 1 in the direction `mu` -/
def rectLoop (mu nu : Dir) : List Move := [(nu, true), (nu, true), (mu, true), (nu, false), (nu, false), (mu, false)]

/-- Specification: the action `beta sum_x [(1-8 C1) sum_{mu<nu} (1 - Re Tr square/3) + C1 sum_{mu≠nu} (1 - Re Tr rectangle/3)]` -/
def actionSpec (beta C1 : ℝ) (g : Geo) (U : Coords → Quad) : ℝ :=
  beta * ∑ x ∈ box g.L,
    ((1 - 8 * C1) * ∑ mu : Dir, ∑ nu ∈ Finset.univ.filter (mu < ·), (1 - (pathProd g U x (sqLoop mu nu)).trace.re / 3) +
      C1 * ∑ mu : Dir, ∑ nu ∈ Finset.univ.filter (· ≠ mu), (1 - (pathProd g U x (rectLoop mu nu)).trace.re / 3))

/-- Specification: the coefficient of the rectangles of each action -/
def c1Of : ActName → Option ℝ
  | .unspec => none
  | .wilson => some 0
  | .tlsym => some (-1 / 12)
  | .iwasaki => some (-331 / 1000)

theorem dirPairs_eq : dirPairs = [(0, 1), (0, 2), (0, 3), (1, 0), (1, 2), (1, 3), (2, 0), (2, 1), (2, 3), (3, 0), (3, 1), (3, 2)] := by decide

/-- step of the accumulation with given values -/
def shStep (a b : Dir → Dir → ℝ) (s : ℝ × ℝ) (mn : Dir × Dir) : ℝ × ℝ :=
  (if mn.1 < mn.2 then s.1 + a mn.1 mn.2 else s.1, s.2 + b mn.1 mn.2)

theorem filter_lt (mu : Dir) : Finset.univ.filter (fun nu : Dir => mu < nu) = match mu with
    | 0 => {1, 2, 3} | 1 => {2, 3} | 2 => {3} | 3 => ∅ := by revert mu; decide

theorem filter_ne (mu : Dir) : Finset.univ.filter (fun nu : Dir => nu ≠ mu) = match mu with
    | 0 => {1, 2, 3} | 1 => {0, 2, 3} | 2 => {0, 1, 3} | 3 => {0, 1, 2} := by revert mu; decide

theorem sum_lt (a : Dir → Dir → ℝ) : ∑ mu : Dir, ∑ nu ∈ Finset.univ.filter (mu < ·), a mu nu =
    a 0 1 + a 0 2 + a 0 3 + a 1 2 + a 1 3 + a 2 3 := by
  rw [Fin.sum_univ_four, filter_lt, filter_lt, filter_lt, filter_lt]
  simp only
  rw [Finset.sum_insert (by decide), Finset.sum_insert (by decide), Finset.sum_singleton, Finset.sum_insert (by decide), Finset.sum_singleton,
    Finset.sum_singleton, Finset.sum_empty]
  ring

theorem sum_ne (b : Dir → Dir → ℝ) : ∑ mu : Dir, ∑ nu ∈ Finset.univ.filter (· ≠ mu), b mu nu =
    b 0 1 + b 0 2 + b 0 3 + b 1 0 + b 1 2 + b 1 3 + b 2 0 + b 2 1 + b 2 3 + b 3 0 + b 3 1 + b 3 2 := by
  rw [Fin.sum_univ_four, filter_ne, filter_ne, filter_ne, filter_ne]
  simp only
  rw [Finset.sum_insert (by decide), Finset.sum_insert (by decide), Finset.sum_singleton, Finset.sum_insert (by decide),
    Finset.sum_insert (by decide), Finset.sum_singleton, Finset.sum_insert (by decide), Finset.sum_insert (by decide), Finset.sum_singleton,
    Finset.sum_insert (by decide), Finset.sum_insert (by decide), Finset.sum_singleton]
  ring

theorem shFold (a b : Dir → Dir → ℝ) : dirPairs.foldl (shStep a b) (0, 0) =
    (∑ mu : Dir, ∑ nu ∈ Finset.univ.filter (mu < ·), a mu nu, ∑ mu : Dir, ∑ nu ∈ Finset.univ.filter (· ≠ mu), b mu nu) := by
  rw [sum_lt, sum_ne, dirPairs_eq]
  simp [List.foldl, shStep]

/-- trace of the square as computed -/
def plaqAt (g : Geo) (U : Coords → Quad) (x : Coords) (mu nu : Dir) : ℝ := (pathProd g U x (sqLoop mu nu)).trace.re
/-- trace of the rectangle as computed, starting from the middle of the long side -/
def rectAt (g : Geo) (U : Coords → Quad) (x : Coords) (mu nu : Dir) : ℝ :=
  (pathProd g U x [(nu, true), (mu, true), (nu, false), (nu, false), (mu, false), (nu, true)]).trace.re

theorem mem_dirPairs {mu nu : Dir} (h : (mu, nu) ∈ dirPairs) : nu ≠ mu := by
  rw [dirPairs_eq] at h
  revert mu nu; decide

section
variable {g : Geo} (ok : g.Ok)
include ok

theorem plaq_value (U : Coords → Quad) {x : Coords} (hx : x ∈ box g.L) {mu nu : Dir} (hne : nu ≠ mu) :
    reTrProdDag (U x nu * U (tshift g x nu 1) mu * (U (tshift g x mu 1) nu)ᴴ) (U x mu) = plaqAt g U x mu nu := by
  rw [reTrProdDag_eq, plaqAt, ← reTr_dag]
  simp only [sqLoop, pathProd]
  rw [show tshift g (tshift g (tshift g x mu 1) nu 1) mu (-1) = tshift g x nu 1 by
      rw [tshift_comm g x hne.symm]; exact tshift_back ok (tshift_mem_box ok hx nu 1) mu 1 (.inl rfl),
    tshift_back ok hx nu 1 (.inl rfl)]
  simp only [conjTranspose_mul, conjTranspose_conjTranspose, Matrix.mul_one, Matrix.mul_assoc]

theorem rect_value (U : Coords → Quad) {x : Coords} (hx : x ∈ box g.L) {mu nu : Dir} (hne : nu ≠ mu) :
    reTrProdDag (U x nu * U (tshift g x nu 1) mu * (U (tshift g x mu 1) nu)ᴴ)
      ((U (tshift g x nu (-1)) nu)ᴴ * U (tshift g x nu (-1)) mu * U (tshift g (tshift g x nu (-1)) mu 1) nu) = rectAt g U x mu nu := by
  have h1 := tshift_mem_box ok hx mu 1
  have h2 := tshift_mem_box ok hx nu (-1)
  rw [reTrProdDag_eq, rectAt]
  simp only [pathProd]
  rw [show tshift g (tshift g (tshift g x nu 1) mu 1) nu (-1) = tshift g x mu 1 by
      rw [← tshift_comm g x hne.symm]; exact tshift_back ok h1 nu 1 (.inl rfl)]
  rw [show tshift g (tshift g (tshift g x mu 1) nu (-1)) mu (-1) = tshift g x nu (-1) by
      rw [tshift_comm g x hne.symm]; exact tshift_back ok h2 mu 1 (.inl rfl)]
  rw [tshift_comm g x hne]
  simp only [conjTranspose_mul, conjTranspose_conjTranspose, Matrix.mul_one, Matrix.mul_assoc]

/-- the trace of a closed path does not depend on the starting point -/
theorem trace_rotate (U : Coords → Quad) (x : Coords) (pre l : List Move) (hc : pathEnd g x (pre ++ l) = x) :
    (pathProd g U x (pre ++ l)).trace = (pathProd g U (pathEnd g x pre) (l ++ pre)).trace := by
  rw [pathEnd_append] at hc
  rw [pathProd_append, pathProd_append, hc, Matrix.trace_mul_comm]

theorem sqLoop_closed {x : Coords} (hx : x ∈ box g.L) {mu nu : Dir} (hne : nu ≠ mu) : pathEnd g x (sqLoop mu nu) = x := by
  simp only [sqLoop, pathEnd, if_true, if_false, Bool.false_eq_true]
  rw [tshift_comm g _ hne.symm 1 1, tshift_back ok (tshift_mem_box ok hx nu 1) mu 1 (.inl rfl)]
  exact tshift_back ok hx nu 1 (.inl rfl)

theorem rectLoop_closed {x : Coords} (hx : x ∈ box g.L) {mu nu : Dir} (hne : nu ≠ mu) : pathEnd g x (rectLoop mu nu) = x := by
  have h1 := tshift_mem_box ok hx nu 1
  have h2 := tshift_mem_box ok hx mu 1
  simp only [rectLoop, pathEnd, if_true, if_false, Bool.false_eq_true]
  rw [tshift_comm g _ hne 1 1, tshift_back ok (tshift_mem_box ok h1 mu 1) nu 1 (.inl rfl), tshift_comm g x hne 1 1,
    tshift_back ok h2 nu 1 (.inl rfl)]
  exact tshift_back ok hx mu 1 (.inl rfl)

/-- the rectangle can be followed from any of its corners -/
theorem rect_sum (U : Coords → Quad) {mu nu : Dir} (hne : nu ≠ mu) :
    ∑ x ∈ box g.L, rectAt g U x mu nu = ∑ x ∈ box g.L, (pathProd g U x (rectLoop mu nu)).trace.re := by
  rw [← sum_shift ok nu (.inr rfl) (fun _ y => (pathProd g U y (rectLoop mu nu)).trace.re)]
  refine Finset.sum_congr rfl fun x hx => ?_
  have hy := tshift_mem_box ok hx nu (-1)
  have h := trace_rotate ok U (tshift g x nu (-1)) [(nu, true)] [(nu, true), (mu, true), (nu, false), (nu, false), (mu, false)]
    (rectLoop_closed ok hy hne)
  have e : pathEnd g (tshift g x nu (-1)) [(nu, true)] = x := tshift_back ok hx nu (-1) (.inr rfl)
  rw [e] at h
  unfold rectAt rectLoop
  simp only [List.cons_append, List.nil_append] at h
  rw [h]

/-- the values at a site -/
def shapesAt (g : Geo) (U : Coords → Quad) (x : Coords) : ℝ × ℝ :=
  (∑ mu : Dir, ∑ nu ∈ Finset.univ.filter (mu < ·), plaqAt g U x mu nu, ∑ mu : Dir, ∑ nu ∈ Finset.univ.filter (· ≠ mu), rectAt g U x mu nu)

theorem point_shapes (ji : Nat) (jv : Quad) (U : Nat → Nat → Quad) {r : Coords} (hr : IsRank g r) {A : Nat} (hA : A < g.locVol)
    {x : Coords} (hx : glbCoordOfLoclx g r A = some x) (hb : x ∈ box g.L) :
    point_plaquette_and_rectangles_lx_conf (upT g r ji) (dwT g r ji) (mem g jv U r) A = shapesAt g (glob g U) x := by
  unfold point_plaquette_and_rectangles_lx_conf shapesAt
  rw [← shFold]
  refine foldl_congr' _ _ _ (fun a mn hmn => ?_) _
  obtain ⟨mu, nu⟩ := mn
  have hne := mem_dirPairs hmn
  unfold shapesStep shStep
  simp only
  rw [mem_here ok jv U hr hA hx, mem_up ok jv ji U hr hA hx nu, mem_up ok jv ji U hr hA hx mu, mem_dw ok jv ji U hr hA hx nu,
    plaq_value ok _ hb hne]
  rw [show mem g jv U r (upT g r ji (dwT g r ji A nu) mu) = glob g U (tshift g (tshift g x nu (-1)) mu 1) from
    mem_step2 ok jv ji U hr hA hx hne (.inr rfl) (.inl rfl), rect_value ok _ hb hne]

theorem point_shapes_eo (eo : EoOk g) (ji : Nat) (jv : Quad) (U : Nat → Nat → Nat → Quad) {r : Coords} (hr : IsRank g r) {p A : Nat}
    (hp : p < 2) (hA : A < g.locVol / 2) {l : Nat} (hl : loclxOfLoceo g r p A = some l) {x : Coords} (hx : glbCoordOfLoclx g r l = some x)
    (hb : x ∈ box g.L) :
    dirPairs.foldl (shapesStepEo (eupT g r ji) (edwT g r ji) (eoMem g jv U r) p A) (0, 0) = shapesAt g (globEo g U) x := by
  unfold shapesAt
  rw [← shFold]
  refine foldl_congr' _ _ _ (fun a mn hmn => ?_) _
  obtain ⟨mu, nu⟩ := mn
  have hne := mem_dirPairs hmn
  unfold shapesStepEo shStep
  simp only
  rw [eoMem_eq ok eo jv U hr hp (by unfold allVol; omega) hl hx,
    show eoMem g jv U r (1 - p) (eupT g r ji p A nu) = _ from eoMem_neigh ok eo jv ji U hr hp hA hl hx nu (.inl rfl),
    show eoMem g jv U r (1 - p) (eupT g r ji p A mu) = _ from eoMem_neigh ok eo jv ji U hr hp hA hl hx mu (.inl rfl),
    show eoMem g jv U r (1 - p) (edwT g r ji p A nu) = _ from eoMem_neigh ok eo jv ji U hr hp hA hl hx nu (.inr rfl),
    show eoMem g jv U r p (eupT g r ji (1 - p) (edwT g r ji p A nu) mu) = _ from
      eoMem_step2 ok eo jv ji U hr hp hA hl hx hne (.inr rfl) (.inl rfl),
    plaq_value ok _ hb hne, rect_value ok _ hb hne]

theorem coord_box {rk i : Nat} (hrk : rk < g.nranks) (hi : i < g.locVol) {x : Coords} (hx : glbCoordOfLoclx g (coordOfLx rk g.R) i = some x) :
    x ∈ box g.L := by
  rw [mem_box]
  obtain ⟨c, ⟨h1, h2⟩, -⟩ := C02_bijective g ok rk i hrk hi
  have := (C02_rank_and_loclx g ok c h1).2.2.2.1
  rw [h2] at this
  rw [hx] at this
  cases this
  exact h1

theorem card_box : (box g.L).card = g.glbVol := by
  simp [box, Fintype.card_piFinset, Geo.glbVol, C01_volOfLx, Fin.prod_univ_four]

theorem glbVol_ne : (g.glbVol : ℝ) ≠ 0 := by
  have := L_pos ok
  have a := this 0; have b := this 1; have c := this 2; have d := this 3
  have : 0 < g.glbVol := by unfold Geo.glbVol; rw [C01_volOfLx]; positivity
  positivity

theorem sum_shapes (U : Coords → Quad) : ∑ x ∈ box g.L, shapesAt g U x =
    (∑ x ∈ box g.L, ∑ mu : Dir, ∑ nu ∈ Finset.univ.filter (mu < ·), (pathProd g U x (sqLoop mu nu)).trace.re,
      ∑ x ∈ box g.L, ∑ mu : Dir, ∑ nu ∈ Finset.univ.filter (· ≠ mu), (pathProd g U x (rectLoop mu nu)).trace.re) := by
  unfold shapesAt
  rw [sum_pair ok]
  refine Prod.ext rfl ?_
  simp only
  rw [Finset.sum_comm, Finset.sum_comm (s := box g.L)]
  refine Finset.sum_congr rfl fun mu _ => ?_
  rw [Finset.sum_comm, Finset.sum_comm (s := box g.L)]
  refine Finset.sum_congr rfl fun nu hnu => ?_
  exact rect_sum ok U (Finset.mem_filter.1 hnu).2

theorem global_shapes (ji : Nat) (jv : Quad) (sched : Nat → Nat → List Nat) (hl : ∀ rk, Reduce.Legal (sched rk)) (U : Nat → Nat → Quad) :
    global_plaquette_and_rectangles_lx_conf g ji jv sched U =
      ((∑ x ∈ box g.L, shapesAt g (glob g U) x).1 / (18 * g.glbVol), (∑ x ∈ box g.L, shapesAt g (glob g U) x).2 / (36 * g.glbVol)) := by
  unfold global_plaquette_and_rectangles_lx_conf
  rw [reduce_sites ok sched hl _ (fun x => shapesAt g (glob g U) x)]
  intro rk hrk i hi x hx
  exact point_shapes ok ji jv U (isRank_coord ok hrk) hi hx (coord_box ok hrk hi hx)

theorem global_shapes_eo (eo : EoOk g) (ji : Nat) (jv : Quad) (jp : ℝ × ℝ) (sched : Nat → Nat → List Nat) (hl : ∀ rk, Reduce.Legal (sched rk))
    (U : Nat → Nat → Nat → Quad) :
    global_plaquette_and_rectangles_eo_conf g ji jv jp sched U =
      ((∑ x ∈ box g.L, shapesAt g (globEo g U) x).1 / (18 * g.glbVol), (∑ x ∈ box g.L, shapesAt g (globEo g U) x).2 / (36 * g.glbVol)) := by
  unfold global_plaquette_and_rectangles_eo_conf
  rw [reduce_sites ok sched hl _ (fun x => shapesAt g (globEo g U) x)]
  intro rk hrk i hi x hx
  have hr := isRank_coord ok hrk
  have hev := even_locVol ok eo
  obtain ⟨c, p, e, h1, h2, h3, h4, h5, h6, -⟩ := C07_eo_of_lx g ok eo (coordOfLx rk g.R) i (by omega)
  have hp : p < 2 := by omega
  have : pointShapesEoField g ji jv U (coordOfLx rk g.R) i =
      some (dirPairs.foldl (shapesStepEo (eupT g (coordOfLx rk g.R) ji) (edwT g (coordOfLx rk g.R) ji) (eoMem g jv U (coordOfLx rk g.R)) p e) (0, 0)) := by
    unfold pointShapesEoField
    refine (writeLoop_spec _ _ _ _ _).1 _ ⟨(p, e), ?_, h5⟩ ?_
    · rw [List.mem_flatMap]
      exact ⟨p, by simp; omega, List.mem_map.2 ⟨e, List.mem_range.2 (h6.1 hi), rfl⟩⟩
    · rintro ⟨p', e'⟩ hm hk
      simp only at hk
      rw [List.mem_flatMap] at hm
      obtain ⟨q, hq, hm⟩ := hm
      obtain ⟨e2, he2, heq⟩ := List.mem_map.1 hm
      cases heq
      have hq2 : p' < 2 := by simp at hq; omega
      have he3 := List.mem_range.1 he2
      obtain ⟨l', k1, k2, k3, k4, k5⟩ := C07_lx_of_eo g ok eo (coordOfLx rk g.R) p' e' hq2 (by omega)
      rw [hk] at k1; cases k1
      rw [h3] at k3; cases k3
      rw [h4] at k4; cases k4
      rfl
  rw [this]
  exact point_shapes_eo ok eo ji jv U hr hp (h6.1 hi) h5 hx (coord_box ok hrk hi hx)

/-- normalisation of the action -/
theorem symanzik_spec (beta C1 : ℝ) (U : Coords → Quad) :
    Symanzik_action g ((∑ x ∈ box g.L, shapesAt g U x).1 / (18 * g.glbVol), (∑ x ∈ box g.L, shapesAt g U x).2 / (36 * g.glbVol)) beta C1 =
      actionSpec beta C1 g U := by
  have hv := glbVol_ne ok
  unfold actionSpec Symanzik_action get_C0
  rw [sum_shapes ok]
  simp only
  rw [Finset.sum_add_distrib, ← Finset.mul_sum, ← Finset.mul_sum]
  have e1 : ∑ x ∈ box g.L, ∑ mu : Dir, ∑ nu ∈ Finset.univ.filter (mu < ·), (1 - (pathProd g U x (sqLoop mu nu)).trace.re / 3) =
      6 * g.glbVol - (∑ x ∈ box g.L, ∑ mu : Dir, ∑ nu ∈ Finset.univ.filter (mu < ·), (pathProd g U x (sqLoop mu nu)).trace.re) / 3 := by
    have : ∀ x ∈ box g.L, ∑ mu : Dir, ∑ nu ∈ Finset.univ.filter (mu < ·), (1 - (pathProd g U x (sqLoop mu nu)).trace.re / 3) =
        6 - (∑ mu : Dir, ∑ nu ∈ Finset.univ.filter (mu < ·), (pathProd g U x (sqLoop mu nu)).trace.re) / 3 := by
      intro x _; rw [sum_lt, sum_lt]; ring
    rw [Finset.sum_congr rfl this, Finset.sum_sub_distrib, ← Finset.sum_div, Finset.sum_const, card_box ok]
    simp; ring
  have e2 : ∑ x ∈ box g.L, ∑ mu : Dir, ∑ nu ∈ Finset.univ.filter (· ≠ mu), (1 - (pathProd g U x (rectLoop mu nu)).trace.re / 3) =
      12 * g.glbVol - (∑ x ∈ box g.L, ∑ mu : Dir, ∑ nu ∈ Finset.univ.filter (· ≠ mu), (pathProd g U x (rectLoop mu nu)).trace.re) / 3 := by
    have : ∀ x ∈ box g.L, ∑ mu : Dir, ∑ nu ∈ Finset.univ.filter (· ≠ mu), (1 - (pathProd g U x (rectLoop mu nu)).trace.re / 3) =
        12 - (∑ mu : Dir, ∑ nu ∈ Finset.univ.filter (· ≠ mu), (pathProd g U x (rectLoop mu nu)).trace.re) / 3 := by
      intro x _; rw [sum_ne, sum_ne]; ring
    rw [Finset.sum_congr rfl this, Finset.sum_sub_distrib, ← Finset.sum_div, Finset.sum_const, card_box ok]
    simp; ring
  rw [e1, e2]
  field_simp
  ring

theorem wilson_spec (beta : ℝ) (U : Coords → Quad) :
    Wilson_action g (((∑ x ∈ box g.L, timePlaq g U x) / (9 * g.glbVol) + (∑ x ∈ box g.L, spacePlaq g U x) / (9 * g.glbVol)) / 2) beta =
      actionSpec beta 0 g U := by
  have hv := glbVol_ne ok
  rw [← symanzik_spec ok, sum_shapes ok]
  have : ∀ x ∈ box g.L, ∑ mu : Dir, ∑ nu ∈ Finset.univ.filter (mu < ·), (pathProd g U x (sqLoop mu nu)).trace.re = timePlaq g U x + spacePlaq g U x := by
    intro x hx
    have hs : ∀ mu nu : Dir, nu ≠ mu → pathProd g U x (sqLoop mu nu) = square g U x mu nu := by
      intro mu nu hne
      simp only [sqLoop, pathProd, square]
      rw [show tshift g (tshift g (tshift g x mu 1) nu 1) mu (-1) = tshift g x nu 1 by
        rw [tshift_comm g x hne.symm]; exact tshift_back ok (tshift_mem_box ok hx nu 1) mu 1 (.inl rfl), tshift_back ok hx nu 1 (.inl rfl)]
      simp only [Matrix.mul_one, Matrix.mul_assoc]
    rw [sum_lt, hs _ _ (by decide), hs _ _ (by decide), hs _ _ (by decide), hs _ _ (by decide), hs _ _ (by decide), hs _ _ (by decide)]
    unfold timePlaq spacePlaq; ring
  simp only
  rw [Finset.sum_congr rfl this, Finset.sum_add_distrib]
  unfold Symanzik_action Wilson_action get_C0
  field_simp
  ring

/-- C50: `gluonic_action` of a full field is the action of the global configuration, for any grid of ranks and order of the reduction;
it crashes only when the action has not been specified. -/
theorem C50_gluonic_action (ji : Nat) (jv : Quad) (sched : Nat → Nat → List Nat) (hl : ∀ rk, Reduce.Legal (sched rk)) (U : Nat → Nat → Quad)
    (name : ActName) (beta : ℝ) :
    gluonic_action_lx g ji jv sched U name beta = (c1Of name).map fun C1 => actionSpec beta C1 g (glob g U) := by
  cases name
  · rfl
  · simp only [gluonic_action_lx, c1Of, Option.map_some, Wilson_action_lx, average_plaquette_lx_conf]
    rw [C32_global_plaquette ok ji jv sched hl]
    exact congrArg some (wilson_spec ok beta _)
  · simp only [gluonic_action_lx, c1Of, Option.map_some]
    rw [global_shapes ok ji jv sched hl, symanzik_spec ok, show C1_TLSYM = -1 / 12 by unfold C1_TLSYM; norm_num]
  · simp only [gluonic_action_lx, c1Of, Option.map_some]
    rw [global_shapes ok ji jv sched hl, symanzik_spec ok, show C1_IWASAKI = -331 / 1000 by unfold C1_IWASAKI; norm_num]

/-- C50: the same for an even/odd field -/
theorem C50_gluonic_action_eo (eo : EoOk g) (ji : Nat) (jv : Quad) (jp : ℝ × ℝ) (sched : Nat → Nat → List Nat) (hl : ∀ rk, Reduce.Legal (sched rk))
    (U : Nat → Nat → Nat → Quad) (name : ActName) (beta : ℝ) :
    gluonic_action_eo g ji jv jp sched U name beta = (c1Of name).map fun C1 => actionSpec beta C1 g (globEo g U) := by
  cases name
  · rfl
  · simp only [gluonic_action_eo, c1Of, Option.map_some, Wilson_action_eo]
    rw [C32_global_plaquette_eo ok eo ji jv jp sched hl]
    exact congrArg some (wilson_spec ok beta _)
  · simp only [gluonic_action_eo, c1Of, Option.map_some]
    rw [global_shapes_eo ok eo ji jv jp sched hl, symanzik_spec ok, show C1_TLSYM = -1 / 12 by unfold C1_TLSYM; norm_num]
  · simp only [gluonic_action_eo, c1Of, Option.map_some]
    rw [global_shapes_eo ok eo ji jv jp sched hl, symanzik_spec ok, show C1_IWASAKI = -331 / 1000 by unfold C1_IWASAKI; norm_num]

/-! ### Gauge invariance, bounds -/

theorem actionSpec_congr {U V : Coords → Quad} (h : ∀ x ∈ box g.L, U x = V x) (beta C1 : ℝ) : actionSpec beta C1 g U = actionSpec beta C1 g V := by
  unfold actionSpec
  congr 1
  refine Finset.sum_congr rfl fun x hx => ?_
  congr 2
  · exact Finset.sum_congr rfl fun mu _ => Finset.sum_congr rfl fun nu _ => by rw [Nissa.Clv.pathProd_congr ok h _ hx]
  · exact Finset.sum_congr rfl fun mu _ => Finset.sum_congr rfl fun nu _ => by rw [Nissa.Clv.pathProd_congr ok h _ hx]

theorem actionSpec_invariant (G : Coords → M3) (hG : AllUnitary g G) (U : Coords → Quad) (beta C1 : ℝ) :
    actionSpec beta C1 g (transformed g G U) = actionSpec beta C1 g U := by
  unfold actionSpec
  congr 1
  refine Finset.sum_congr rfl fun x hx => ?_
  congr 2
  · refine Finset.sum_congr rfl fun mu _ => Finset.sum_congr rfl fun nu hnu => ?_
    rw [C32_closed_path g ok G hG U _ x hx (sqLoop_closed ok hx (ne_of_gt (Finset.mem_filter.1 hnu).2))]
  · refine Finset.sum_congr rfl fun mu _ => Finset.sum_congr rfl fun nu hnu => ?_
    rw [C32_closed_path g ok G hG U _ x hx (rectLoop_closed ok hx (Finset.mem_filter.1 hnu).2)]

/-- C50: a gauge transformation does not change the action -/
theorem C50_action_invariant (ji ji' : Nat) (jv : Quad) (jg : M3) (sched sched' : Nat → Nat → List Nat) (hl : ∀ rk, Reduce.Legal (sched rk))
    (hl' : ∀ rk, Reduce.Legal (sched' rk)) (U : Nat → Nat → Quad) (G : Nat → Nat → M3)
    (hG : ∀ rk, rk < g.nranks → ∀ i, i < g.locVol → (G rk i)ᴴ * G rk i = 1) (name : ActName) (beta : ℝ) :
    gluonic_action_lx g ji jv sched (gauge_transform_conf g ji' jg G U) name beta = gluonic_action_lx g ji jv sched' U name beta := by
  rw [C50_gluonic_action ok ji jv sched hl, C50_gluonic_action ok ji jv sched' hl']
  have hG' : AllUnitary g (glob g G) := by
    intro x hx
    obtain ⟨h1, h2, -⟩ := C02_rank_and_loclx g ok x (mem_box.1 hx)
    exact hG _ h1 _ h2
  congr 1
  funext C1
  rw [actionSpec_congr ok (fun x hx => C32_gauge_transform ok ji' jg G U x hx), actionSpec_invariant ok _ hG']

/-! ### Values on unitary links -/

omit ok in
theorem unitary_reTr {M : M3} (h : M * Mᴴ = 1) : |M.trace.re| ≤ 3 := by
  have hd : ∀ i, |(M i i).re| ≤ 1 := by
    intro i
    have e := congrFun (congrFun h i) i
    rw [Matrix.mul_apply, Matrix.one_apply_eq] at e
    have e2 := congrArg Complex.re e
    rw [Complex.re_sum] at e2
    simp only [conjTranspose_apply, Complex.star_def, Complex.mul_conj, Complex.ofReal_re, Complex.one_re] at e2
    have h1 : Complex.normSq (M i i) ≤ 1 := by
      rw [← e2]
      exact Finset.single_le_sum (f := fun j => Complex.normSq (M i j)) (fun j _ => Complex.normSq_nonneg _) (Finset.mem_univ i)
    rw [Complex.normSq_apply] at h1
    rw [abs_le]
    constructor <;> nlinarith [mul_self_nonneg (M i i).im]
  rw [Matrix.trace, Complex.re_sum]
  refine (Finset.abs_sum_le_sum_abs _ _).trans ?_
  refine (Finset.sum_le_sum fun i _ => hd i).trans ?_
  simp

theorem pathProd_unitary {U : Coords → Quad} (hU : ∀ x ∈ box g.L, ∀ mu, U x mu * (U x mu)ᴴ = 1) (l : List Move) {x : Coords} (hx : x ∈ box g.L) :
    pathProd g U x l * (pathProd g U x l)ᴴ = 1 := by
  induction l generalizing x with
  | nil => simp [pathProd]
  | cons m l ih =>
    have h1 : linkOf g U x m * (linkOf g U x m)ᴴ = 1 := by
      obtain ⟨mu, d⟩ := m
      cases d
      · simp only [linkOf, Bool.false_eq_true, if_false, conjTranspose_conjTranspose]
        exact mul_eq_one_comm.1 (hU _ (tshift_mem_box ok hx mu (-1)) mu)
      · exact hU x hx mu
    rw [pathProd_cons, conjTranspose_mul]
    calc _ = linkOf g U x m * (pathProd g U (stepOf g x m) l * (pathProd g U (stepOf g x m) l)ᴴ) * (linkOf g U x m)ᴴ := by
            simp only [Matrix.mul_assoc]
      _ = 1 := by rw [ih (stepOf_mem ok hx m), Matrix.mul_one, h1]

/-- C50: on unitary links the Wilson action is between 0 and twelve times `beta` times the volume; every action of the identity vanishes. -/
theorem C50_action_bounds (ji : Nat) (jv : Quad) (sched : Nat → Nat → List Nat) (hl : ∀ rk, Reduce.Legal (sched rk)) (U : Nat → Nat → Quad)
    (hU : ∀ rk, rk < g.nranks → ∀ i, i < g.locVol → ∀ mu, U rk i mu * (U rk i mu)ᴴ = 1) (beta : ℝ) (hb : 0 ≤ beta) :
    ∃ S, gluonic_action_lx g ji jv sched U .wilson beta = some S ∧ 0 ≤ S ∧ S ≤ 12 * beta * g.glbVol := by
  refine ⟨_, C50_gluonic_action ok ji jv sched hl U .wilson beta, ?_⟩
  have hU' : ∀ x ∈ box g.L, ∀ mu, glob g U x mu * (glob g U x mu)ᴴ = 1 := by
    intro x hx mu
    obtain ⟨h1, h2, -⟩ := C02_rank_and_loclx g ok x (mem_box.1 hx)
    exact hU _ h1 _ h2 mu
  have hs : ∀ x ∈ box g.L, ∀ l, |(pathProd g (glob g U) x l).trace.re| ≤ 3 := fun x hx l => unitary_reTr (pathProd_unitary ok hU' l hx)
  have k : ∀ x ∈ box g.L, 0 ≤ (∑ mu : Dir, ∑ nu ∈ Finset.univ.filter (mu < ·), (1 - (pathProd g (glob g U) x (sqLoop mu nu)).trace.re / 3)) ∧
      (∑ mu : Dir, ∑ nu ∈ Finset.univ.filter (mu < ·), (1 - (pathProd g (glob g U) x (sqLoop mu nu)).trace.re / 3)) ≤ 12 := by
    intro x hx
    rw [sum_lt]
    have h := fun l => abs_le.1 (hs x hx l)
    have a := h (sqLoop 0 1); have b := h (sqLoop 0 2); have c := h (sqLoop 0 3)
    have d := h (sqLoop 1 2); have e := h (sqLoop 1 3); have f := h (sqLoop 2 3)
    constructor <;> linarith [a.1, a.2, b.1, b.2, c.1, c.2, d.1, d.2, e.1, e.2, f.1, f.2]
  simp only [actionSpec, mul_zero, sub_zero, one_mul, zero_mul, add_zero]
  constructor
  · exact mul_nonneg hb (Finset.sum_nonneg fun x hx => (k x hx).1)
  · have : (∑ x ∈ box g.L, ∑ mu : Dir, ∑ nu ∈ Finset.univ.filter (mu < ·), (1 - (pathProd g (glob g U) x (sqLoop mu nu)).trace.re / 3)) ≤ 12 * g.glbVol := by
      refine (Finset.sum_le_sum fun x hx => (k x hx).2).trans ?_
      rw [Finset.sum_const, card_box ok]
      simp; linarith
    calc _ ≤ beta * (12 * g.glbVol) := mul_le_mul_of_nonneg_left this hb
      _ = _ := by ring

theorem C50_action_cold (ji : Nat) (jv : Quad) (sched : Nat → Nat → List Nat) (hl : ∀ rk, Reduce.Legal (sched rk)) (U : Nat → Nat → Quad)
    (hU : ∀ rk, rk < g.nranks → ∀ i, i < g.locVol → ∀ mu, U rk i mu = 1) (name : ActName) (hn : name ≠ .unspec) (beta : ℝ) :
    gluonic_action_lx g ji jv sched U name beta = some 0 := by
  rw [C50_gluonic_action ok ji jv sched hl]
  have h : ∀ x ∈ box g.L, glob g U x = fun _ => 1 := by
    intro x hx
    obtain ⟨h1, h2, -⟩ := C02_rank_and_loclx g ok x (mem_box.1 hx)
    funext mu
    exact hU _ h1 _ h2 mu
  have hp : ∀ l x, pathProd g (fun _ _ => (1 : M3)) x l = 1 := by
    intro l
    induction l with
    | nil => intro x; rfl
    | cons m l ih => intro x; rw [pathProd_cons, ih]; obtain ⟨mu, d⟩ := m; cases d <;> simp [linkOf]
  have hz : ∀ C1, actionSpec beta C1 g (glob g U) = 0 := by
    intro C1
    rw [actionSpec_congr ok (V := fun _ _ => 1) h]
    simp [actionSpec, hp]
  cases name
  · exact absurd rfl hn
  all_goals simp only [c1Of, Option.map_some, hz]

/-- C50: two configurations equal on the lattice, one as full and one as even/odd field, distributed in whatever way, have the same action -/
theorem C50_action_layout (eo : EoOk g) (ji ji' : Nat) (jv jv' : Quad) (jp : ℝ × ℝ) (sched sched' : Nat → Nat → List Nat) (hl : ∀ rk, Reduce.Legal (sched rk))
    (hl' : ∀ rk, Reduce.Legal (sched' rk)) (U : Nat → Nat → Quad) (E : Nat → Nat → Nat → Quad) (h : ∀ x ∈ box g.L, globEo g E x = glob g U x)
    (name : ActName) (beta : ℝ) : gluonic_action_eo g ji jv jp sched E name beta = gluonic_action_lx g ji' jv' sched' U name beta := by
  rw [C50_gluonic_action_eo ok eo ji jv jp sched hl, C50_gluonic_action ok ji' jv' sched' hl']
  congr 1
  funext C1
  exact actionSpec_congr ok h beta C1

end

end

end Nissa.GForce
