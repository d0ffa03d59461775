import Verif.Stencil.Stencil
import Verif.Field.Reduce
import Verif.Color.Su3Fun

/-! # Plaquette and gauge transformation of a configuration

Models `/repo/src/operations/su3_paths/plaquette.hpp` and `gauge_transform_conf` of `/repo/src/operations/gauge_fixing.cpp:26-80`.
Colour matrices are complex 3x3 matrices (the kernels on the memory are shown to act as the products in `Color/`), real
arithmetic is exact. -/

set_option linter.all false

namespace Nissa.Gauge
open Nissa.Lx Nissa.Sten Nissa.Su3f Matrix

/-- value of a `quad_su3` -/
abbrev Quad := Dir → M3

/-- `real_part_of_trace_su3_prod_su3_dag`.  `/repo/src/new_types/su3_op.hpp:1036-1046` -/
def reTrProdDag (a b : M3) : ℝ :=
  [0, 1, 2].foldl (fun t ic => [0, 1, 2].foldl (fun t jc => t + ((a ic jc).re * (b ic jc).re + (a ic jc).im * (b ic jc).im)) t) 0

/-- `for(mu=0;mu<NDIM;mu++) for(nu=mu+1;nu<NDIM;nu++)` -/
def planes : List (Dir × Dir) := dirs.flatMap (fun mu => (dirs.filter (fun nu => mu < nu)).map (fun nu => (mu, nu)))

/-- one iteration of the loop of `point_plaquette_lx_conf`, given the readings: `loc_plaq[ts]+=...`, `ts=(mu!=0 and nu!=0)`.
`/repo/src/operations/su3_paths/plaquette.hpp:37-48` -/
def plaqStep (confA : Quad) (confUp : Dir → Quad) (locPlaq : ℝ × ℝ) (mn : Dir × Dir) : ℝ × ℝ :=
  let ABD := confA mn.1 * confUp mn.1 mn.2
  let ACD := confA mn.2 * confUp mn.2 mn.1
  let v := reTrProdDag ABD ACD
  if mn.1 ≠ 0 ∧ mn.2 ≠ 0 then (locPlaq.1, locPlaq.2 + v) else (locPlaq.1 + v, locPlaq.2)

/-- `point_plaquette_lx_conf`: `conf` is the memory of the rank, `up` the table `loclxNeighup`.
`/repo/src/operations/su3_paths/plaquette.hpp:23-50` -/
def point_plaquette_lx_conf (up : Nat → Dir → Nat) (conf : Nat → Quad) (A : Nat) : ℝ × ℝ :=
  planes.foldl (plaqStep (conf A) (fun mu => conf (up A mu))) (0, 0)

/-- `global_plaquette_lx_conf`: the field of the plaquettes is filled on each rank, reduced in any order `sched`, summed on the
ranks and normalised with `glbVol*NCOL*NCOL`.  `/repo/src/operations/su3_paths/plaquette.hpp:52-78` -/
noncomputable def global_plaquette_lx_conf (g : Geo) (ji : Nat) (jv : Quad) (sched : Nat → Nat → List Nat) (U : Nat → Nat → Quad) : ℝ × ℝ :=
  let temp := ∑ rk ∈ Finset.range g.nranks, Reduce.reduceNoPreserve (· + ·) (sched rk) g.locVol
    (fun ivol => let r := coordOfLx rk g.R; point_plaquette_lx_conf (upT g r ji) (mem g jv U r) ivol)
  (temp.1 / (g.glbVol * 3 * 3), temp.2 / (g.glbVol * 3 * 3))

/-- average plaquette, `/repo/src/operations/su3_paths/plaquette.hpp:80-89` -/
noncomputable def average_plaquette_lx_conf (g : Geo) (ji : Nat) (jv : Quad) (sched : Nat → Nat → List Nat) (U : Nat → Nat → Quad) : ℝ :=
  let plaq := global_plaquette_lx_conf g ji jv sched U
  (plaq.1 + plaq.2) / 2

/-- `point_plaquette_eo_conf`: the neighbours are taken in the part of opposite parity `!par`.
`/repo/src/operations/su3_paths/plaquette.hpp:93-119` -/
def point_plaquette_eo_conf (up : Nat → Nat → Dir → Nat) (conf : Nat → Nat → Quad) (par A : Nat) : ℝ × ℝ :=
  planes.foldl (plaqStep (conf par A) (fun mu => conf (1 - par) (up par A mu))) (0, 0)

/-- the field `point_plaq` filled by the loops of `global_plaquette_eo_conf` on one rank: element
`loclx_of_loceo[par][ieo]` receives the plaquettes of `(par,ieo)`; `none` what is never written.
`/repo/src/operations/su3_paths/plaquette.hpp:129-140` -/
noncomputable def pointPlaqEoField (g : Geo) (ji : Nat) (jv : Quad) (U : Nat → Nat → Nat → Quad) (r : Coords) : Nat → Option (ℝ × ℝ) :=
  writeLoop (fun pe : Nat × Nat => loclxOfLoceo g r pe.1 pe.2)
    (fun pe => point_plaquette_eo_conf (eupT g r ji) (eoMem g jv U r) pe.1 pe.2)
    ([0, 1].flatMap (fun p => (List.range (g.locVol / 2)).map (fun e => (p, e)))) (fun _ => none)

/-- `global_plaquette_eo_conf`.  `/repo/src/operations/su3_paths/plaquette.hpp:121-147`; `jp` is what is read of the field where
it was not written -/
noncomputable def global_plaquette_eo_conf (g : Geo) (ji : Nat) (jv : Quad) (jp : ℝ × ℝ) (sched : Nat → Nat → List Nat)
    (U : Nat → Nat → Nat → Quad) : ℝ × ℝ :=
  let temp := ∑ rk ∈ Finset.range g.nranks, Reduce.reduceNoPreserve (· + ·) (sched rk) g.locVol
    (fun ivol => (pointPlaqEoField g ji jv U (coordOfLx rk g.R) ivol).getD jp)
  (temp.1 / (g.glbVol * 3 * 3), temp.2 / (g.glbVol * 3 * 3))

/-- `gauge_transform_conf` on a full field, at the site `ivol` of the rank `rk`: `uout[ivol][mu]=g[ivol]*(uin[ivol][mu]*g[up]^+)`.
`/repo/src/operations/gauge_fixing.cpp:26-52` -/
def gauge_transform_conf (g : Geo) (ji : Nat) (jv : M3) (G : Nat → Nat → M3) (uin : Nat → Nat → Quad) (rk ivol : Nat) : Quad := fun mu =>
  let r := coordOfLx rk g.R
  let temp := uin rk ivol mu * (mem g jv G r (upT g r ji ivol mu))ᴴ
  mem g jv G r ivol * temp

/-- `gauge_transform_conf` on an even/odd field.  `/repo/src/operations/gauge_fixing.cpp:55-80` -/
def gauge_transform_conf_eo (g : Geo) (ji : Nat) (jv : M3) (G : Nat → Nat → Nat → M3) (uin : Nat → Nat → Nat → Quad) (rk par ivol : Nat) :
    Quad := fun mu =>
  let r := coordOfLx rk g.R
  let temp := uin rk par ivol mu * (eoMem g jv G r (1 - par) (eupT g r ji par ivol mu))ᴴ
  eoMem g jv G r par ivol * temp

/-! ### Specification, on the global lattice -/

/-- the ordered product around the square: `U_mu(x) U_nu(x+mu) U_mu(x+nu)^+ U_nu(x)^+` -/
def square (g : Geo) (U : Coords → Quad) (x : Coords) (mu nu : Dir) : M3 :=
  U x mu * U (tshift g x mu 1) nu * (U (tshift g x nu 1) mu)ᴴ * (U x nu)ᴴ

/-- sum of the real traces of the three squares in the planes containing the time direction -/
def timePlaq (g : Geo) (U : Coords → Quad) (x : Coords) : ℝ :=
  (square g U x 0 1).trace.re + (square g U x 0 2).trace.re + (square g U x 0 3).trace.re

/-- the same for the purely spatial planes -/
def spacePlaq (g : Geo) (U : Coords → Quad) (x : Coords) : ℝ :=
  (square g U x 1 2).trace.re + (square g U x 1 3).trace.re + (square g U x 2 3).trace.re

/-- gauge transformed configuration: `G(x) U_mu(x) G(x+mu)^+` -/
def transformed (g : Geo) (G : Coords → M3) (U : Coords → Quad) : Coords → Quad := fun x mu =>
  G x * U x mu * (G (tshift g x mu 1))ᴴ

/-- all the matrices of the gauge transformation are unitary -/
def AllUnitary (g : Geo) (G : Coords → M3) : Prop := ∀ x ∈ box g.L, (G x)ᴴ * G x = 1

theorem reTrProdDag_eq (a b : M3) : reTrProdDag a b = (a * bᴴ).trace.re := by
  simp [reTrProdDag, Matrix.trace, Matrix.mul_apply, Fin.sum_univ_three, Matrix.conjTranspose_apply]
  ring

theorem plaqStep_value (a b c d : M3) : reTrProdDag (a * b) (c * d) = (a * b * dᴴ * cᴴ).trace.re := by
  rw [reTrProdDag_eq, Matrix.conjTranspose_mul, ← Matrix.mul_assoc]

theorem planes_eq : planes = [(0, 1), (0, 2), (0, 3), (1, 2), (1, 3), (2, 3)] := by decide

theorem plaq_fold (g : Geo) (U : Coords → Quad) (x : Coords) :
    planes.foldl (plaqStep (U x) (fun mu => U (tshift g x mu 1))) (0, 0) = (timePlaq g U x, spacePlaq g U x) := by
  rw [planes_eq]
  simp only [List.foldl, plaqStep, plaqStep_value, timePlaq, spacePlaq, square]
  simp

section
variable {g : Geo} (ok : g.Ok)
include ok

theorem isRank_coord {rk : Nat} (h : rk < g.nranks) : IsRank g (coordOfLx rk g.R) := (coordOfLx_spec ok.R_pos h).1

theorem lx_coord {rk : Nat} (h : rk < g.nranks) : lxOfCoord (coordOfLx rk g.R) g.R = rk := (coordOfLx_spec ok.R_pos h).2

/-- C32: on any rank the value computed at a local site is the sum of the traces of the six squares of the global configuration
starting from the global site. -/
theorem C32_point_plaquette (ji : Nat) (jv : Quad) (U : Nat → Nat → Quad) {r : Coords} (hr : IsRank g r) {A : Nat} (hA : A < g.locVol)
    {x : Coords} (hx : glbCoordOfLoclx g r A = some x) :
    point_plaquette_lx_conf (upT g r ji) (mem g jv U r) A = (timePlaq g (glob g U) x, spacePlaq g (glob g U) x) := by
  unfold point_plaquette_lx_conf
  rw [mem_here ok jv U hr hA hx]
  rw [show (fun mu => mem g jv U r (upT g r ji A mu)) = fun mu => glob g U (tshift g x mu 1) from
    funext fun mu => mem_up ok jv ji U hr hA hx mu]
  exact plaq_fold g (glob g U) x

/-- C32: the same for the even/odd field -/
theorem C32_point_plaquette_eo (eo : EoOk g) (ji : Nat) (jv : Quad) (U : Nat → Nat → Nat → Quad) {r : Coords} (hr : IsRank g r) {p A : Nat}
    (hp : p < 2) (hA : A < g.locVol / 2) {l : Nat} (hl : loclxOfLoceo g r p A = some l) {x : Coords} (hx : glbCoordOfLoclx g r l = some x) :
    point_plaquette_eo_conf (eupT g r ji) (eoMem g jv U r) p A = (timePlaq g (globEo g U) x, spacePlaq g (globEo g U) x) := by
  unfold point_plaquette_eo_conf
  rw [eoMem_eq ok eo jv U hr hp (by unfold allVol; omega) hl hx]
  rw [show (fun mu => eoMem g jv U r (1 - p) (eupT g r ji p A mu)) = fun mu => globEo g U (tshift g x mu 1) from
    funext fun mu => eoMem_neigh ok eo jv ji U hr hp hA hl hx mu (.inl rfl)]
  exact plaq_fold g (globEo g U) x

/-- reduction of a field whose local values are those of a function of the global coordinates -/
theorem reduce_sites {M : Type} [AddCommMonoid M] (sched : Nat → Nat → List Nat) (hl : ∀ rk, Reduce.Legal (sched rk)) (f : Nat → Nat → M) (T : Coords → M)
    (h : ∀ rk, rk < g.nranks → ∀ i, i < g.locVol → ∀ x, glbCoordOfLoclx g (coordOfLx rk g.R) i = some x → f rk i = T x) :
    ∑ rk ∈ Finset.range g.nranks, Reduce.reduceNoPreserve (· + ·) (sched rk) g.locVol (f rk) = ∑ x ∈ box g.L, T x := by
  obtain ⟨X, hX⟩ := coordTable_exists g ok
  have hv : 0 < g.locVol := by
    rw [locVol_eq ok]
    have := loc_pos ok
    simp only [volOfLx, dirs, List.foldl]
    have a := this 0; have b := this 1; have c := this 2; have d := this 3
    positivity
  rw [Reduce.C11_field_reduce g.nranks sched hl g.locVol hv, ← sum_sites g ok X hX]
  refine Finset.sum_congr rfl fun rk hrk => Finset.sum_congr rfl fun i hi => ?_
  exact h rk (Finset.mem_range.1 hrk) i (Finset.mem_range.1 hi) _ (hX rk (Finset.mem_range.1 hrk) i (Finset.mem_range.1 hi))

theorem sum_pair (T S : Coords → ℝ) (s : Finset Coords) : ∑ x ∈ s, (T x, S x) = (∑ x ∈ s, T x, ∑ x ∈ s, S x) := by
  refine Prod.ext ?_ ?_
  · simp [Prod.fst_sum]
  · simp [Prod.snd_sum]

/-- C32: the plaquette of a full configuration is the average over the global lattice, for any grid of ranks and any order of the
reduction: the same configuration gives the same plaquette however it is distributed. -/
theorem C32_global_plaquette (ji : Nat) (jv : Quad) (sched : Nat → Nat → List Nat) (hl : ∀ rk, Reduce.Legal (sched rk)) (U : Nat → Nat → Quad) :
    global_plaquette_lx_conf g ji jv sched U =
      ((∑ x ∈ box g.L, timePlaq g (glob g U) x) / (9 * g.glbVol), (∑ x ∈ box g.L, spacePlaq g (glob g U) x) / (9 * g.glbVol)) := by
  unfold global_plaquette_lx_conf
  rw [reduce_sites ok sched hl _ (fun x => (timePlaq g (glob g U) x, spacePlaq g (glob g U) x)), sum_pair ok]
  · simp only
    rw [show (g.glbVol : ℝ) * 3 * 3 = 9 * g.glbVol by ring]
  · intro rk hrk i hi x hx
    exact C32_point_plaquette ok ji jv U (isRank_coord ok hrk) hi hx

/-- C32: the plaquette of an even/odd configuration -/
theorem C32_global_plaquette_eo (eo : EoOk g) (ji : Nat) (jv : Quad) (jp : ℝ × ℝ) (sched : Nat → Nat → List Nat)
    (hl : ∀ rk, Reduce.Legal (sched rk)) (U : Nat → Nat → Nat → Quad) :
    global_plaquette_eo_conf g ji jv jp sched U =
      ((∑ x ∈ box g.L, timePlaq g (globEo g U) x) / (9 * g.glbVol), (∑ x ∈ box g.L, spacePlaq g (globEo g U) x) / (9 * g.glbVol)) := by
  unfold global_plaquette_eo_conf
  rw [reduce_sites ok sched hl _ (fun x => (timePlaq g (globEo g U) x, spacePlaq g (globEo g U) x)), sum_pair ok]
  · simp only
    rw [show (g.glbVol : ℝ) * 3 * 3 = 9 * g.glbVol by ring]
  · intro rk hrk i hi x hx
    have hr := isRank_coord ok hrk
    have hev := even_locVol ok eo
    obtain ⟨c, p, e, h1, h2, h3, h4, h5, h6, -⟩ := C07_eo_of_lx g ok eo (coordOfLx rk g.R) i (by omega)
    have hp : p < 2 := by omega
    have : pointPlaqEoField g ji jv U (coordOfLx rk g.R) i =
        some (point_plaquette_eo_conf (eupT g (coordOfLx rk g.R) ji) (eoMem g jv U (coordOfLx rk g.R)) p e) := by
      unfold pointPlaqEoField
      refine (writeLoop_spec _ _ _ _ _).1 _ ⟨(p, e), ?_, h5⟩ ?_
      · rw [List.mem_flatMap]
        exact ⟨p, by simp; omega, List.mem_map.2 ⟨e, List.mem_range.2 (h6.1 hi), rfl⟩⟩
      · rintro ⟨p', e'⟩ hm hk
        simp only at hk
        rw [List.mem_flatMap] at hm
        obtain ⟨q, hq, hm⟩ := hm
        obtain ⟨e2, he2, heq⟩ := List.mem_map.1 hm
        cases heq
        have hq2 : p' < 2 := by simp at hq; omega
        have he3 := List.mem_range.1 he2
        obtain ⟨l', k1, k2, k3, k4, k5⟩ := C07_lx_of_eo g ok eo (coordOfLx rk g.R) p' e' hq2 (by omega)
        rw [hk] at k1; cases k1
        rw [h3] at k3; cases k3
        rw [h4] at k4; cases k4
        rfl
    rw [this]
    exact C32_point_plaquette_eo ok eo ji jv U hr hp (h6.1 hi) h5 hx

/-- C32: `gauge_transform_conf` applies the gauge transformation to the global configuration, on any grid of ranks. -/
theorem C32_gauge_transform (ji : Nat) (jv : M3) (G : Nat → Nat → M3) (uin : Nat → Nat → Quad) (x : Coords) (hx : x ∈ box g.L) :
    glob g (gauge_transform_conf g ji jv G uin) x = transformed g (glob g G) (glob g uin) x := by
  rw [mem_box] at hx
  obtain ⟨h1, h2, -, h4, -⟩ := C02_rank_and_loclx g ok x hx
  funext mu
  have hr := isRank_coord ok h1
  show mem g jv G _ _ * (uin _ _ mu * (mem g jv G _ _)ᴴ) = _
  rw [mem_up ok jv ji G hr h2 h4, mem_here ok jv G hr h2 h4, ← Matrix.mul_assoc]
  rfl

/-- C32: the even/odd version gives the same transformation. -/
theorem C32_gauge_transform_eo (eo : EoOk g) (ji : Nat) (jv : M3) (G : Nat → Nat → Nat → M3) (uin : Nat → Nat → Nat → Quad) (x : Coords)
    (hx : x ∈ box g.L) :
    globEo g (gauge_transform_conf_eo g ji jv G uin) x = transformed g (globEo g G) (globEo g uin) x := by
  rw [mem_box] at hx
  obtain ⟨h1, h2, -, h4, -⟩ := C02_rank_and_loclx g ok x hx
  funext mu
  have hr := isRank_coord ok h1
  obtain ⟨c, p, e, k1, k2, k3, k4, k5, k6, -⟩ := C07_eo_of_lx g ok eo (coordOfLx (getLoclxAndRankOfCoords g x).1 g.R)
    (getLoclxAndRankOfCoords g x).2 (by omega)
  rw [h4] at k1; cases k1
  have hev := even_locVol ok eo
  have hp : p < 2 := by omega
  have e1 := eoMem_eq ok eo jv G hr hp (e := e) (by have := k6.1 h2; unfold allVol; omega) k5 h4
  have e2 := eoMem_neigh ok eo jv ji G hr hp (k6.1 h2) k5 h4 mu (.inl rfl)
  unfold globEo at *
  unfold gauge_transform_conf_eo transformed
  simp only
  rw [← k2, k4, Option.getD_some]
  rw [← k2, k4, Option.getD_some] at e1
  rw [e1]
  unfold eupT
  rw [e2, ← Matrix.mul_assoc]

end

/-! ### Gauge invariance -/

theorem tshift_mem_box {g : Geo} (ok : g.Ok) {x : Coords} (hx : x ∈ box g.L) (mu : Dir) (d : Int) : tshift g x mu d ∈ box g.L := by
  rw [mem_box] at hx ⊢
  intro nu
  unfold tshift
  by_cases h : nu = mu
  · subst h
    rw [Function.update_self]
    have := L_pos ok nu
    have h2 := Int.emod_lt_of_pos ((x nu : Int) + d) (show (0 : Int) < g.L nu by exact_mod_cast this)
    have h3 := Int.emod_nonneg ((x nu : Int) + d) (show (g.L nu : Int) ≠ 0 by omega)
    omega
  · rw [Function.update_of_ne h]; exact hx nu

theorem tshift_comm (g : Geo) (x : Coords) {mu nu : Dir} (h : mu ≠ nu) (d e : Int) :
    tshift g (tshift g x mu d) nu e = tshift g (tshift g x nu e) mu d := by
  unfold tshift
  rw [Function.update_of_ne h.symm, Function.update_of_ne h, Function.update_comm h]

/-- the square is transformed by the matrix at its starting site -/
theorem square_transformed {g : Geo} (ok : g.Ok) (G : Coords → M3) (hG : AllUnitary g G) (U : Coords → Quad) {x : Coords} (hx : x ∈ box g.L)
    {mu nu : Dir} (hne : mu ≠ nu) : square g (transformed g G U) x mu nu = G x * square g U x mu nu * (G x)ᴴ := by
  unfold square transformed
  have h1 := hG _ (tshift_mem_box ok hx mu 1)
  have h2 := hG _ (tshift_mem_box ok hx nu 1)
  have h3 := hG _ (tshift_mem_box ok (tshift_mem_box ok hx mu 1) nu 1)
  rw [← tshift_comm g x hne]
  simp only [Matrix.conjTranspose_mul, Matrix.conjTranspose_conjTranspose]
  generalize G (tshift g x mu 1) = B at h1
  generalize G (tshift g x nu 1) = C at h2
  generalize G (tshift g (tshift g x mu 1) nu 1) = D at h3
  calc _ = G x * U x mu * (Bᴴ * B) * U (tshift g x mu 1) nu * (Dᴴ * D) * (U (tshift g x nu 1) mu)ᴴ * (Cᴴ * C) * (U x nu)ᴴ * (G x)ᴴ := by
        simp only [Matrix.mul_assoc]
    _ = _ := by rw [h1, h2, h3]; simp only [Matrix.mul_assoc, Matrix.mul_one, Matrix.one_mul]

theorem trace_square_transformed {g : Geo} (ok : g.Ok) (G : Coords → M3) (hG : AllUnitary g G) (U : Coords → Quad) {x : Coords} (hx : x ∈ box g.L)
    {mu nu : Dir} (hne : mu ≠ nu) : (square g (transformed g G U) x mu nu).trace = (square g U x mu nu).trace := by
  rw [square_transformed ok G hG U hx hne, Matrix.trace_mul_comm, ← Matrix.mul_assoc, hG x hx, Matrix.one_mul]

/-- depends only on the values on the lattice -/
theorem square_congr {g : Geo} (ok : g.Ok) {U V : Coords → Quad} (h : ∀ x ∈ box g.L, U x = V x) {x : Coords} (hx : x ∈ box g.L) (mu nu : Dir) :
    square g U x mu nu = square g V x mu nu := by
  unfold square
  rw [h x hx, h _ (tshift_mem_box ok hx mu 1), h _ (tshift_mem_box ok hx nu 1)]

theorem plaq_invariant {g : Geo} (ok : g.Ok) (G : Coords → M3) (hG : AllUnitary g G) (U V : Coords → Quad)
    (hV : ∀ x ∈ box g.L, V x = transformed g G U x) {x : Coords} (hx : x ∈ box g.L) :
    timePlaq g V x = timePlaq g U x ∧ spacePlaq g V x = spacePlaq g U x := by
  unfold timePlaq spacePlaq
  constructor
  · rw [square_congr ok hV hx, square_congr ok hV hx, square_congr ok hV hx, trace_square_transformed ok G hG U hx (by decide),
      trace_square_transformed ok G hG U hx (by decide), trace_square_transformed ok G hG U hx (by decide)]
  · rw [square_congr ok hV hx, square_congr ok hV hx, square_congr ok hV hx, trace_square_transformed ok G hG U hx (by decide),
      trace_square_transformed ok G hG U hx (by decide), trace_square_transformed ok G hG U hx (by decide)]

/-- C32: transforming a configuration with any field of unitary matrices does not change its plaquette. -/
theorem C32_plaquette_invariant (g : Geo) (ok : g.Ok) (ji ji' : Nat) (jv : Quad) (jg : M3) (sched sched' : Nat → Nat → List Nat)
    (hl : ∀ rk, Reduce.Legal (sched rk)) (hl' : ∀ rk, Reduce.Legal (sched' rk)) (U : Nat → Nat → Quad) (G : Nat → Nat → M3)
    (hG : ∀ rk, rk < g.nranks → ∀ i, i < g.locVol → (G rk i)ᴴ * G rk i = 1) :
    global_plaquette_lx_conf g ji jv sched (gauge_transform_conf g ji' jg G U) = global_plaquette_lx_conf g ji jv sched' U := by
  rw [C32_global_plaquette ok ji jv sched hl, C32_global_plaquette ok ji jv sched' hl']
  have hG' : AllUnitary g (glob g G) := by
    intro x hx
    obtain ⟨h1, h2, -⟩ := C02_rank_and_loclx g ok x (mem_box.1 hx)
    exact hG _ h1 _ h2
  have key := fun x hx => plaq_invariant ok (glob g G) hG' (glob g U) (glob g (gauge_transform_conf g ji' jg G U))
    (fun x hx => C32_gauge_transform ok ji' jg G U x hx) (x := x) hx
  rw [Finset.sum_congr rfl fun x hx => (key x hx).1, Finset.sum_congr rfl fun x hx => (key x hx).2]

/-- C32: a configuration has the same plaquette stored as a full field or as even/odd field, after the transformation too. -/
theorem C32_eo_equals_lx (g : Geo) (ok : g.Ok) (eo : EoOk g) (ji : Nat) (jv : Quad) (jp : ℝ × ℝ) (sched sched' : Nat → Nat → List Nat)
    (hl : ∀ rk, Reduce.Legal (sched rk)) (hl' : ∀ rk, Reduce.Legal (sched' rk)) (U : Nat → Nat → Quad) (E : Nat → Nat → Nat → Quad)
    (h : ∀ x ∈ box g.L, globEo g E x = glob g U x) :
    global_plaquette_eo_conf g ji jv jp sched E = global_plaquette_lx_conf g ji jv sched' U := by
  rw [C32_global_plaquette_eo ok eo ji jv jp sched hl, C32_global_plaquette ok ji jv sched' hl']
  have key : ∀ x ∈ box g.L, timePlaq g (globEo g E) x = timePlaq g (glob g U) x ∧ spacePlaq g (globEo g E) x = spacePlaq g (glob g U) x := by
    intro x hx
    unfold timePlaq spacePlaq
    constructor <;> rw [square_congr ok h hx, square_congr ok h hx, square_congr ok h hx]
  rw [Finset.sum_congr rfl fun x hx => (key x hx).1, Finset.sum_congr rfl fun x hx => (key x hx).2]

/-- C32: the plaquette of the unit configuration is one. -/
theorem C32_unit_configuration (g : Geo) (ok : g.Ok) (ji : Nat) (jv : Quad) (sched : Nat → Nat → List Nat)
    (hl : ∀ rk, Reduce.Legal (sched rk)) (U : Nat → Nat → Quad) (hU : ∀ rk, rk < g.nranks → ∀ i, i < g.locVol → ∀ mu, U rk i mu = 1) :
    global_plaquette_lx_conf g ji jv sched U = (1, 1) ∧ average_plaquette_lx_conf g ji jv sched U = 1 := by
  have key : global_plaquette_lx_conf g ji jv sched U = (1, 1) := by
    rw [C32_global_plaquette ok ji jv sched hl]
    have h1 : ∀ x ∈ box g.L, glob g U x = fun _ => 1 := by
      intro x hx
      obtain ⟨h1, h2, -⟩ := C02_rank_and_loclx g ok x (mem_box.1 hx)
      funext mu
      exact hU _ h1 _ h2 mu
    have h2 : ∀ x ∈ box g.L, ∀ mu nu, (square g (glob g U) x mu nu).trace.re = 3 := by
      intro x hx mu nu
      rw [square_congr ok (V := fun _ _ => 1) h1 hx]
      simp [square]
    have hc : (box g.L).card = g.glbVol := by
      simp [box, Fintype.card_piFinset, Geo.glbVol, C01_volOfLx, Fin.prod_univ_four]
    have hv : (g.glbVol : ℝ) ≠ 0 := by
      have := L_pos ok
      have a := this 0; have b := this 1; have c := this 2; have d := this 3
      have : 0 < g.glbVol := by unfold Geo.glbVol; rw [C01_volOfLx]; positivity
      positivity
    rw [Finset.sum_congr rfl fun x hx => show timePlaq g (glob g U) x = 9 by unfold timePlaq; rw [h2 x hx, h2 x hx, h2 x hx]; norm_num,
      Finset.sum_congr rfl fun x hx => show spacePlaq g (glob g U) x = 9 by unfold spacePlaq; rw [h2 x hx, h2 x hx, h2 x hx]; norm_num,
      Finset.sum_const, hc]
    refine Prod.ext ?_ ?_ <;> simp <;> field_simp
  refine ⟨key, ?_⟩
  unfold average_plaquette_lx_conf
  rw [key]
  norm_num

/-- C32: gauge transformations act as a group. -/
theorem C32_transform_group (g : Geo) (G H : Coords → M3) (U : Coords → Quad) :
    transformed g G (transformed g H U) = transformed g (fun x => G x * H x) U ∧ transformed g (fun _ => 1) U = U := by
  constructor
  · funext x mu
    simp only [transformed, Matrix.conjTranspose_mul, Matrix.mul_assoc]
  · funext x mu
    simp [transformed]

/-- hypotheses are met by a configuration which is not a pure phase on 12 ranks -/
example : exGeo.Ok ∧ EoOk ⟨![8, 4, 4, 8], ![2, 1, 2, 2]⟩ ∧ (∀ rk, Reduce.Legal ((fun _ n => List.range n : Nat → Nat → List Nat) rk)) := by
  refine ⟨by decide, by decide, fun _ n => List.Perm.refl _⟩

end Nissa.Gauge
