import Verif.Dirac.PropsWilson2
import Verif.Dirac.EoPrec
import Verif.Dirac.Clover
import Verif.Measures.StagCorr
import Mathlib.LinearAlgebra.Matrix.Kronecker

/-! # Meson contractions and matrix elements of the currents

Models `/repo/projects/ib/contr.cpp` (meson contractions in both versions, scalar product, local and conserved current, sides of the handcuffs) and the
routines of `/repo/projects/ib/prop.cpp` giving a propagator and applying the Dirac operator.  Exact arithmetic.  The number of spin and colour components of
the source (`nso_spi`, `nso_col`) are 4 or 1, and 3 or 1, as set in `/repo/projects/ib/pars.hpp:213-228`. -/

set_option linter.all false

namespace Nissa.Contr
open Nissa.Lx Nissa.Sten Nissa.Su3f Nissa.Gauge Nissa.Gamma Nissa.StD Nissa.Wilson Matrix Complex
open Nissa.Clv (As2t clover_term)

noncomputable section

/-- `so_sp_col_ind`.  `/repo/projects/ib/prop.hpp:26-30` -/
def so_sp_col_ind (nso_col sp col : Nat) : Nat := col + nso_col * sp

/-- the components of a propagator, on the ranks: `Q[name][isou][ivol]` -/
abbrev QProp := Nat → Nat → Nat → SpCol

/-- the loop from 0 to `nso_spi` (at most 4) -/
def soSpins (nso_spi : Nat) : List (Fin 4) := (List.finRange 4).take nso_spi

/-- `spincolor_scalar_prod`.  `/repo/src/new_types/su3_op.hpp:2194-2205` -/
def spincolor_scalar_prod (x y : SpCol) : ℂ := ∑ id, star (x id) ⬝ᵥ y id

/-- `compute_prop_scalprod`.  `/repo/projects/ib/contr.cpp:61-88`; the reduction as in C62 -/
def compute_prop_scalprod (g : Geo) (sched : Nat → Nat → List Nat) (nso_spi nso_col : Nat) (Qdag Q : QProp) : ℂ :=
  let loc := fun rk ivol => (List.range (nso_spi * nso_col)).foldl (fun (l : ℂ) idc_so => l + spincolor_scalar_prod (Qdag idc_so rk ivol) (Q idc_so rk ivol)) 0
  ∑ rk ∈ Finset.range g.nranks, Reduce.reduceNoPreserve (· + ·) (sched rk) g.locVol (loc rk)

/-! ### Meson contractions -/

/-- `loc_contr[ivol]` after the loops.  `/repo/projects/ib/contr.cpp:339-385` -/
def locContr (nso_spi nso_col : Nat) (norm : ℝ) (ig_so ig_si : Fin 19) (Q1 Q2 : QProp) (rk ivol : Nat) : ℂ :=
  (soSpins nso_spi).foldl (fun (acc : ℂ) i =>
    let j := (baseGamma ig_so).pos i
    let A := (baseGamma ig_so).entr i * (baseGamma 5).entr j
    let AB := fun k : Fin 4 => A * ((baseGamma 5).entr k * (baseGamma ig_si).entr k) * (norm : ℂ)
    (List.range nso_col).foldl (fun (acc : ℂ) so_col =>
      let q1 := Q1 (so_sp_col_ind nso_col j so_col) rk ivol
      let q2 := Q2 (so_sp_col_ind nso_col i so_col) rk ivol
      (List.finRange 4).foldl (fun (acc : ℂ) k =>
        let l := (baseGamma ig_si).pos k
        let c := (List.finRange 3).foldl (fun (c : ℂ) a => c + star (q1 k a) * q2 l a) 0
        acc + c * AB k) acc) acc) 0

/-- the sum in `mes_contr_t`, `contr[t+glbSize[0]*iGamma]`.  `/repo/projects/ib/contr.cpp:390-391`, `/repo/projects/ib/contr.hpp:52-56` -/
def addContr (L ori ig : Nat) (temp_contr : Nat → ℂ) (contr : Nat → ℂ) : Nat → ℂ :=
  (List.range L).foldl (fun contr (t : Nat) =>
    let k := (t + L - ori) % L + L * ig
    Function.update contr k (contr k + temp_contr t)) contr

/-- `12/sqrt(n1*n2)`.  `/repo/projects/ib/contr.cpp:109-110,302` -/
def normOf (n1 n2 : ℝ) : ℝ := 12 / Real.sqrt (n1 * n2)

/-- `compute_mes2pt_contr_classic`: the new content of `contr`; `none` if the program stops.  The library of the propagators is in C64.
`/repo/projects/ib/contr.cpp:296-398` -/
def compute_mes2pt_contr_classic (g : Geo) (jc : Coords) (sched : Nat → Nat → List Nat) (nso_spi nso_col ori : Nat) (gammaList : List (Fin 19 × Fin 19)) (n1 n2 : ℝ)
    (Q1 Q2 : QProp) (contr : Nat → ℂ) : Option (Nat → ℂ) :=
  gammaList.zipIdx.foldlM (fun (contr : Nat → ℂ) x =>
    if nso_spi = 1 ∧ x.1.1 ≠ 5 then none
    else do
      let temp ← Stag.glb_reduce g.nranks sched (locContr nso_spi nso_col (normOf n1 n2) x.1.1 x.1.2 Q1 Q2) g.locVol (g.L 0) (g.loc 0) (Stag.firstCoord g jc 0)
      pure (addContr (g.L 0) ori x.2 temp contr)) contr

/-! ### Version on the cpu -/

/-- the word `ri` of a complex number -/
def word (z : ℂ) (ri : Nat) : ℝ := if ri = 0 then z.re else z.im

/-- `soSpiSiSpiRiId`.  `/repo/projects/ib/contr.cpp:113-119` -/
def soSpiSiSpiRiId (iSoSpi iSiSpi ri : Nat) : Nat := ri + 2 * (iSiSpi + 4 * iSoSpi)

/-- `nSoSpiSiSpiRi`.  `/repo/projects/ib/contr.cpp:122-123` -/
def nSoSpiSiSpiRi (nso_spi : Nat) : Nat := soSpiSiSpiRiId (nso_spi - 1) 3 1 + 1

/-- `id`.  `/repo/projects/ib/contr.cpp:126-135` -/
def id (nso_spi nso_col locSpatVol loc0 : Nat) (bwFw t iSoSpiSiSpiRi iSoCol iSiCol iSpatVol : Nat) : Nat :=
  iSpatVol + locSpatVol * (iSiCol + 3 * (iSoCol + nso_col * (iSoSpiSiSpiRi + nSoSpiSiSpiRi nso_spi * (t + loc0 * bwFw))))

/-- size of the buffer `v`.  `/repo/projects/ib/contr.cpp:138` -/
def bufSize (nso_spi nso_col locSpatVol loc0 : Nat) : Nat :=
  id nso_spi nso_col locSpatVol loc0 1 loc0 (nSoSpiSiSpiRi nso_spi - 1) (nso_col - 1) 2 (locSpatVol - 1) + 1

/-- indices of the loops filling the buffer, in the order of the code: spin and colour of the source, which of the two propagators, site, colour, spin, real or
imaginary part.  `/repo/projects/ib/contr.cpp:142-170` -/
def fillLoop (nso_spi nso_col locVol : Nat) : List (Fin 4 × Nat × Nat × Nat × Fin 3 × Fin 4 × Nat) :=
  soSpins nso_spi ×ˢ List.range nso_col ×ˢ List.range 2 ×ˢ List.range locVol ×ˢ List.finRange 3 ×ˢ List.finRange 4 ×ˢ List.range 2

/-- the content of the buffer `v` of a rank; `std::vector` is filled with 0 at the beginning.  `/repo/projects/ib/contr.cpp:138-172` -/
def fillBuf (nso_spi nso_col locSpatVol loc0 locVol : Nat) (Q1 Q2 : QProp) (rk : Nat) : Nat → ℝ :=
  (fillLoop nso_spi nso_col locVol).foldl (fun (v : Nat → ℝ) x =>
    let (iSoSpi, iSoCol, bwFw, iVol, iSiCol, iSiSpi, ri) := x
    let t := iVol / locSpatVol
    let iSpat := iVol % locSpatVol
    let q := if bwFw = 0 then Q1 else Q2
    Function.update v (id nso_spi nso_col locSpatVol loc0 bwFw t (soSpiSiSpiRiId iSoSpi iSiSpi ri) iSoCol iSiCol iSpat)
      (word (q (so_sp_col_ind nso_col iSoSpi iSoCol) rk iVol iSiSpi iSiCol) ri)) (fun _ => 0)

/-- the elements added to the map `contrContrs` by a contraction: key, then contraction, real or imaginary part, weight.
`/repo/projects/ib/contr.cpp:180-231` -/
def contribs (nso_spi : Nat) (iGammaContr : Nat) (igSo igSi : Fin 19) : List ((Nat × Nat) × (Nat × Nat) × ℝ) :=
  (soSpins nso_spi).flatMap fun iSoSpiFw =>
    let iSoSpiBw := (baseGamma igSo).pos iSoSpiFw
    let A := (baseGamma igSo).entr iSoSpiFw * (baseGamma 5).entr iSoSpiBw
    (List.finRange 4).flatMap fun iSiSpiBw =>
      let iSiSpiFw := (baseGamma igSi).pos iSiSpiBw
      let B := (baseGamma 5).entr iSiSpiBw * (baseGamma igSi).entr iSiSpiBw
      let AB := A * B
      (List.range 2).flatMap fun riBw =>
        let briBw : ℂ := if riBw = 0 then ⟨1, 0⟩ else ⟨0, -1⟩
        (List.range 2).flatMap fun riFw =>
          let briFw : ℂ := if riFw = 0 then ⟨1, 0⟩ else ⟨0, 1⟩
          let pr := briBw * briFw * AB
          (List.range 2).flatMap fun ri =>
            if word pr ri ≠ 0 then
              [((soSpiSiSpiRiId iSoSpiBw iSiSpiBw riBw, soSpiSiSpiRiId iSoSpiFw iSiSpiFw riFw), (iGammaContr, ri), word pr ri)]
            else []

/-- the map `contrContrs`: the elements grouped by key (the order of the keys, which is that of `std::map` in the code, is of first appearance here). -/
def contrContrs (all : List ((Nat × Nat) × (Nat × Nat) × ℝ)) : List ((Nat × Nat) × List ((Nat × Nat) × ℝ)) :=
  ((all.map fun x => x.1).dedup).map fun key => (key, (all.filter fun x => x.1 = key).map fun x => x.2)

/-- conversion of an `int64_t` to an `int` -/
def toInt32 (n : Nat) : Int := ((n : Int) + 2 ^ 31) % 2 ^ 32 - 2 ^ 31

/-- body of the loop on the local times for an element of the map: `none` if the buffer is read outside.  The loop on the buffer is taken as a plain sum.
`/repo/projects/ib/contr.cpp:254-279` -/
def cpuBody (nso_spi nso_col locSpatVol loc0 L ori first : Nat) (norm : ℝ) (v : Nat → ℝ) (glb : Nat → Nat → ℝ) (x : ((Nat × Nat) × List ((Nat × Nat) × ℝ)) × Nat) :
    Option (Nat → Nat → ℝ) :=
  let (pairId, iContrRiWeight) := x.1
  let locT := x.2
  let glbT := (locT + L - ori + first) % L
  let base0 := toInt32 (id nso_spi nso_col locSpatVol loc0 0 locT pairId.1 0 0 0)
  let base1 := toInt32 (id nso_spi nso_col locSpatVol loc0 1 locT pairId.2 0 0 0)
  let n := locSpatVol * nso_col * 3
  if 0 ≤ base0 ∧ base0.toNat + n ≤ bufSize nso_spi nso_col locSpatVol loc0 ∧ 0 ≤ base1 ∧ base1.toNat + n ≤ bufSize nso_spi nso_col locSpatVol loc0 then
    let s := ∑ i ∈ Finset.range n, v (base0.toNat + i) * v (base1.toNat + i)
    some (iContrRiWeight.foldl (fun (glb : Nat → Nat → ℝ) c =>
      let k := glbT + L * c.1.1
      Function.update glb k (Function.update (glb k) c.1.2 (glb k c.1.2 + s * c.2 * norm))) glb)
  else none

/-- `glb` of a rank, before the reduction.  `/repo/projects/ib/contr.cpp:234-280` -/
def cpuGlb (g : Geo) (jc : Coords) (nso_spi nso_col ori : Nat) (all : List ((Nat × Nat) × (Nat × Nat) × ℝ)) (norm : ℝ) (Q1 Q2 : QProp) (rk : Nat) : Option (Nat → Nat → ℝ) :=
  let sv := g.loc 1 * g.loc 2 * g.loc 3
  let v := fillBuf nso_spi nso_col sv (g.loc 0) g.locVol Q1 Q2 rk
  (contrContrs all ×ˢ List.range (g.loc 0)).foldlM
    (cpuBody nso_spi nso_col sv (g.loc 0) (g.L 0) ori (Stag.firstCoord g jc 0 rk) norm v) (fun _ _ => 0)

/-- `compute_mes2pt_contr_on_cpu`; MPI_Allreduce is taken to add the contributions.  `/repo/projects/ib/contr.cpp:100-294` -/
def compute_mes2pt_contr_on_cpu (g : Geo) (jc : Coords) (nso_spi nso_col ori : Nat) (gammaList : List (Fin 19 × Fin 19)) (n1 n2 : ℝ) (Q1 Q2 : QProp) (contr : Nat → ℂ) :
    Option (Nat → ℂ) :=
  if nso_spi = 1 ∧ ∃ x ∈ gammaList, x.1 ≠ 5 then none
  else
    let all := gammaList.zipIdx.flatMap fun x => contribs nso_spi x.2 x.1.1 x.1.2
    ((List.range g.nranks).mapM (cpuGlb g jc nso_spi nso_col ori all (normOf n1 n2) Q1 Q2)).map fun parts (i : Nat) =>
      if i < gammaList.length * g.L 0 then contr i + ⟨(parts.map fun p => p i 0).sum, (parts.map fun p => p i 1).sum⟩ else contr i

/-! ### Currents -/

/-- `unsafe_dirac_prod_spincolor`.  `/repo/src/new_types/su3_op.hpp:1953-1959` -/
def diracSpinColor (m : DiracMatr ℂ) (x : SpCol) : SpCol := fun id => m.entr id • x (m.pos id)

/-- `dirac_summ_the_prod_spincolor`.  `/repo/src/new_types/su3_op.hpp:1961-1965` -/
def diracSumm' (out : SpCol) (m : DiracMatr ℂ) (x : SpCol) : SpCol := fun id => out id + m.entr id • x (m.pos id)

/-- `dirac_subt_the_prod_spincolor`.  `/repo/src/new_types/su3_op.hpp:1967-1971` -/
def diracSubt' (out : SpCol) (m : DiracMatr ℂ) (x : SpCol) : SpCol := fun id => out id - m.entr id • x (m.pos id)

/-- a `spin1field`: value for each direction, rank and site -/
abbrev Spin1 := Nat → Nat → Dir → ℂ

/-- `tau3`.  `/repo/src/new_types/dirac.hpp:38-42` -/
def tau3 (r : Fin 2) : ℝ := if r = 0 then -1 else 1

/-- the matrix `GAMMA[mu]`.  `/repo/projects/ib/contr.cpp:887-898,962-967` -/
def gammaMu (revert : Bool) (mu : Dir) : DiracMatr ℂ := if revert then diracProd (baseGamma 5) (baseGamma (iGammaOfMu mu)) else baseGamma (iGammaOfMu mu)

/-- the matrix `GAMMA[4]`.  `/repo/projects/ib/contr.cpp:881-896` -/
def gamma4 (twisted revert : Bool) (r : Fin 2) : DiracMatr ℂ :=
  let temp_gamma := if twisted then diracProdIdouble (baseGamma 5) (-tau3 r) else baseGamma 0
  if revert then diracProd (baseGamma 5) temp_gamma else temp_gamma

/-- the matrix `g`.  `/repo/projects/ib/contr.cpp:900-902,969-973` -/
def sourceGamma (ext_g : DiracMatr ℂ) (revert : Bool) : DiracMatr ℂ := if revert then diracProd ext_g (baseGamma 5) else ext_g

/-- `vector_current_mel`.  `/repo/projects/ib/contr.cpp:952-1006` -/
def vector_current_mel (nso_spi nso_col : Nat) (ext_g : DiracMatr ℂ) (revert : Bool) (Qbw Qfw : QProp) : Spin1 := fun rk ivol mu =>
  let g := sourceGamma ext_g revert
  (soSpins nso_spi ×ˢ List.range nso_col).foldl (fun (si : ℂ) x =>
    let iso_spi_fw := x.1
    let iso_spi_bw := g.pos iso_spi_fw
    let bw := Qbw (so_sp_col_ind nso_col iso_spi_bw x.2) rk ivol
    let fw := Qfw (so_sp_col_ind nso_col iso_spi_fw x.2) rk ivol
    let c := spincolor_scalar_prod bw (diracSpinColor (gammaMu revert mu) fw)
    si + c * g.entr iso_spi_fw) 0

/-- `complex_summ_the_prod_idouble`.  `/repo/src/new_types/complex.hpp:262-273` -/
def summProdIdouble (a b : ℂ) (c : ℝ) : ℂ := ⟨a.re - b.im * c, a.im + b.re * c⟩

/-- `conserved_vector_current_mel`.  `/repo/projects/ib/contr.cpp:870-949` -/
def conserved_vector_current_mel (g : Geo) (ji : Nat) (jq : Quad) (jv : SpCol) (twisted : Bool) (nso_spi nso_col : Nat) (conf : Nat → Nat → Quad) (ext_g : DiracMatr ℂ)
    (r : Fin 2) (revert : Bool) (Qbw Qfw : QProp) : Spin1 := fun rk ivol mu =>
  let gg := sourceGamma ext_g revert
  let rc := coordOfLx rk g.R
  let U := mem g jq conf rc ivol mu
  let ivol_fw := upT g rc ji ivol mu
  (soSpins nso_spi ×ˢ List.range nso_col).foldl (fun (si : ℂ) x =>
    let iso_spi_bw := x.1
    let iso_spi_fw := gg.pos iso_spi_bw
    let fw := mem g jv (Qfw (so_sp_col_ind nso_col iso_spi_fw x.2)) rc
    let bw := mem g jv (Qbw (so_sp_col_ind nso_col iso_spi_bw x.2)) rc
    let f : SpCol := fun id => U *ᵥ fw ivol_fw id
    let Gf := diracSubt' (diracSpinColor (gamma4 twisted revert r) f) (gammaMu revert mu) f
    let c := spincolor_scalar_prod (bw ivol) Gf
    let c := c * gg.entr iso_spi_bw
    let si := summProdIdouble si c (-0.5)
    let f : SpCol := fun id => Uᴴ *ᵥ fw ivol id
    let Gf := diracSumm' (diracSpinColor (gamma4 twisted revert r) f) (gammaMu revert mu) f
    let c := spincolor_scalar_prod (bw ivol_fw) Gf
    let c := c * gg.entr iso_spi_bw
    summProdIdouble si c (0.5)) 0

/-! ### Propagators -/

/-- rotation on the sink or source of a propagator: `(tau3[r]==-1)?Pminus:Pplus`.  `/repo/projects/ib/prop.cpp:59,110` -/
def propRot (r : Fin 2) : DiracMatr ℂ := if tau3 r = -1 then pMinus else pPlus

/-- rotation of the Dirac operator: `(tau3[r]==+1)?Pminus:Pplus`.  `/repo/projects/ib/prop.cpp:623,653` -/
def dopRot (r : Fin 2) : DiracMatr ℂ := if tau3 r = 1 then pMinus else pPlus

/-- `get_qprop` when inverting explicitly: the propagator, given the routine solving the system.  `/repo/projects/ib/prop.cpp:42-112` -/
def get_qprop {Cr : Type} (twisted : Bool) (r : Fin 2) (solve : (Nat → Nat → SpCol) → Except Cr (Nat → Nat → SpCol)) (inp : Nat → Nat → SpCol) : Except Cr (Nat → Nat → SpCol) := do
  let inp := if twisted then fun rk ivol => diracSpinColor (propRot r) (inp rk ivol) else inp
  let out ← solve inp
  pure fun rk ivol => diracSpinColor (propRot r) (out rk ivol)

/-- the hermitian operator used in `mult_by_Dop`, on the configuration with the phases of the background and boundaries included.
`/repo/projects/ib/prop.cpp:628-639` -/
def dopQ (g : Geo) (ji : Nat) (jq : Quad) (jv : SpCol) (l0 : As2t) (clover_run : Bool) (glb_cSW : ℝ) (conf : Nat → Nat → Quad) (kappa : ℝ) (anis : Option ℝ) (mass : ℝ)
    (inp : Nat → Nat → SpCol) : Nat → Nat → SpCol :=
  if clover_run then apply_tmclovQ g ji jq jv conf kappa anis (clover_term g ji jq l0 glb_cSW conf) mass inp
  else apply_tmQ g ji jq jv conf kappa anis mass inp

/-- `mult_by_Dop`, given the product by the hermitian operator.  `/repo/projects/ib/prop.cpp:604-655` -/
def mult_by_Dop (twisted : Bool) (r : Fin 2) (applyQ : (Nat → Nat → SpCol) → Nat → Nat → SpCol) (inp : Nat → Nat → SpCol) : Nat → Nat → SpCol :=
  let tmp := if twisted then fun rk ivol => diracSpinColor (dopRot r) (inp rk ivol) else inp
  let out := applyQ tmp
  let out := fun rk ivol => diracSpinColor (baseGamma 5) (out rk ivol)
  if twisted then fun rk ivol => diracSpinColor (dopRot r) (out rk ivol) else out

end

end Nissa.Contr
