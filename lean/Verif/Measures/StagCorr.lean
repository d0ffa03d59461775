import Verif.Measures.Stag
import Verif.Smearing.Gaussian
import Verif.Dirac.EoPrec
import Verif.Field.Reduce

/-! # Traces and staggered meson correlators

Models the reductions of `/repo/src/measures/fermions/stag.cpp` and `/repo/src/measures/fermions/mesons.cpp`.  The vectors provided by the macro
PROVIDE_COMPLEX_VECTOR are modelled as the arrays they are meant to be, see `complexWord` for what the macro does. -/

set_option linter.all false

namespace Nissa.Stag
open Nissa.Lx Nissa.Sten Nissa.Su3f Nissa.Gauge Nissa.StD Nissa.Back Matrix

noncomputable section

/-- `glb_reduce`: the result is relevant for the slices lower than `nslices`; `none` if one of the ranks crashes.  `sched rk` is the order of the
parallel loops on the rank; the final MPI_Allreduce is taken to add the contributions.  `/repo/src/linalgs/reduce.hpp:192-214` -/
def glb_reduce {M : Type} [AddCommMonoid M] (nranks : Nat) (sched : Nat → Nat → List Nat) (buf : Nat → Nat → M) (nloc nslices nloc_slices : Nat)
    (loc_offset : Nat → Nat) : Option (Nat → M) :=
  ((List.range nranks).mapM fun rk =>
    (Reduce.locReduce (· + ·) (sched rk) nloc nloc_slices (buf rk)).map fun res (k : Nat) =>
      if loc_offset rk ≤ k ∧ k < loc_offset rk + nloc_slices ∧ k < nslices then res (k - loc_offset rk) else 0).map
  fun parts k => (parts.map fun p => p k).sum

/-- the loop on the two parities and the sites of each.  E.g. `/repo/src/measures/fermions/mesons.cpp:163-166` -/
def eoSites (g : Geo) : List (Nat × Nat) := List.range 2 ×ˢ List.range (g.locVol / 2)

/-- `local_trace`.  `/repo/src/measures/fermions/stag.cpp:278-296` -/
def local_trace (g : Geo) (ji : Nat) (A B : EoCol) (rk : Nat) : Nat → ℂ :=
  (eoSites g).foldl (fun point_result s =>
    let i := (loclxOfLoceo g (coordOfLx rk g.R) s.1 s.2).getD ji
    Function.update point_result i (point_result i + star (A rk s.1 s.2) ⬝ᵥ B rk s.1 s.2)) (fun _ => 0)

/-- `summ_the_trace`: the new value of `out`, given the old one.  `/repo/src/measures/fermions/stag.cpp:299-309` -/
def summ_the_trace (g : Geo) (ji : Nat) (sched : Nat → Nat → List Nat) (out : ℂ) (A B : EoCol) : ℂ :=
  ∑ rk ∈ Finset.range g.nranks, Reduce.reduceNoPreserve (· + ·) (sched rk) g.locVol (local_trace g ji A B rk)

/-- `glbCoordOfLoclx[0][mu]` on a rank -/
def firstCoord (g : Geo) (jc : Coords) (mu : Dir) (rk : Nat) : Nat := ((glbCoordOfLoclx g (coordOfLx rk g.R) 0).getD jc) mu

/-- `summ_the_time_trace`: the new content of `out`.  `/repo/src/measures/fermions/stag.cpp:312-325` -/
def summ_the_time_trace (g : Geo) (ji : Nat) (jc : Coords) (sched : Nat → Nat → List Nat) (out : Nat → ℝ) (A B : EoCol) : Option (Nat → ℝ) :=
  (glb_reduce g.nranks sched (local_trace g ji A B) g.locVol (g.L 0) (g.loc 0) (firstCoord g jc 0)).map fun temp glb_t =>
    if glb_t < g.L 0 then out glb_t + (temp glb_t).re else out glb_t

/-- index of the word of the real (`ri=0`) or imaginary part of the element `k`, counted from the begin of the `std::vector` object, in the
vectors of the macro PROVIDE_COMPLEX_VECTOR: the macro takes the address of the object, not of its data.  The object is made of
three words.  `/repo/src/new_types/complex.hpp:20-22` -/
def complexWord (k ri : Nat) : Nat := 2 * k + ri

/-- number of words of a `std::vector` object -/
def vectorWords : Nat := 3

/-! ### Mesons -/

/-- `icombo`; the number of operators and of flavours are the global variables `nop` and `nflavs`.
`/repo/src/measures/fermions/mesons.cpp:24-36` -/
def icombo (L nop nflavs iflav_so iflav_si iop_so iop_si i_dir : Nat) : Nat :=
  i_dir + L * (iop_si + nop * (iop_so + nop * (iflav_si + nflavs * iflav_so)))

/-- a colour vector as a matrix of one column, and back -/
def toCV (v : Col) : Gsm.CV Unit := fun a _ => v a
def ofCV (v : Gsm.CV Unit) : Col := fun a => v a ()

/-- `gaussian_smear_eo`.  `/repo/src/measures/fermions/mesons.cpp:40-58` -/
def gaussian_smear_eo (g : Geo) (ji : Nat) (jq : Quad) (jv : Col) (inp : EoCol) (conf_lx : Nat → Nat → Quad) (gauss_kappa : ℝ) (gauss_niter : Int) : EoCol :=
  if gauss_niter ≤ 0 then inp
  else
    let lx_buf := EoP.pasteFld g jv inp
    let lx_buf := Gsm.gaussian_smearing_iso g ji jq (toCV jv) (fun rk i => toCV (lx_buf rk i)) conf_lx gauss_kappa gauss_niter
    EoP.splitFld g jv (fun rk i => ofCV (lx_buf rk i))

/-- the parameters of the measure and of the theory.  `/repo/src/measures/fermions/mesons.hpp:13-45` -/
structure MesonPars where
  dir : Dir
  nop : Nat
  mesons : Nat → Int × Int
  nflavs : Nat
  gauss_kappa : ℝ
  gauss_niter_src : Int
  gauss_niter_snk : Int
  residue : ℝ
  mass : Nat → ℝ
  backfield : Nat → EoU1

/-- the values never written -/
structure Junk where
  ji : Nat
  jq : Quad
  jv : Col
  jc : Coords
  junk : Dir → Int

variable {g : Geo} (ok : g.Ok) (eo : EoOk g) (J : Junk)

/-- `shift[iop]` and `mask[iop]`.  `/repo/src/measures/fermions/mesons.cpp:98-107` -/
def mesonShift (p : MesonPars) (iop : Nat) : Int := xor4 (p.mesons iop).1 (p.mesons iop).2
def mesonMask (p : MesonPars) (iop : Nat) : Int := form_stag_meson_pattern_with_g5g5 (p.mesons iop).1 (p.mesons iop).2

/-- shift followed by the phases.  `/repo/src/measures/fermions/mesons.cpp:135-136,152-153` -/
def mesonOp (g : Geo) (J : Junk) (p : MesonPars) (conf : EoConf) (iflav iop : Nat) (inp temp0 : EoCol) : Option EoCol :=
  (apply_shift_op g J.ji J.jq J.jv J.jc J.junk false conf (p.backfield iflav) (mesonShift p iop) inp temp0).map fun out =>
    put_stag_phases g J.ji J.jc out (mesonMask p iop)

/-- the loop on the flavours and the operators -/
def flavOps (p : MesonPars) : List (Nat × Nat) := List.range p.nflavs ×ˢ List.range p.nop

/-- the vectors `quark` and `quark0s` of a hit, given the source, their previous content and that of the scratch field; `none` if the program
stops.  `/repo/src/measures/fermions/mesons.cpp:123-154` -/
def mesonHit (p : MesonPars) (conf : EoConf) (temp0 : EoCol) (old : (Nat → EoCol) × (Nat → EoCol)) (ori_source : EoCol) : Option ((Nat → EoCol) × (Nat → EoCol)) := do
  let conf_lx := EoP.pasteFld g J.jq conf
  let smeared_ori_source := gaussian_smear_eo g J.ji J.jq J.jv ori_source conf_lx p.gauss_kappa p.gauss_niter_src
  let quark ← (flavOps p).foldlM (fun (quark : Nat → EoCol) fo => do
    let idx := fo.1 * p.nop + fo.2
    let source ← mesonOp g J p conf fo.1 fo.2 smeared_ori_source temp0
    let sol ← (mult_Minv ok eo J.ji J.jq J.jv J.jc J.junk conf (p.backfield fo.1) (p.mass fo.1) p.residue source).toOption
    pure (Function.update quark idx (gaussian_smear_eo g J.ji J.jq J.jv sol conf_lx p.gauss_kappa p.gauss_niter_snk))) old.1
  let quark0s ← (flavOps p).foldlM (fun (quark0s : Nat → EoCol) fo => do
    let idx := fo.1 * p.nop + fo.2
    let id0 := fo.1 * p.nop + 0
    let out ← mesonOp g J p conf fo.1 fo.2 (quark id0) temp0
    pure (Function.update quark0s idx out)) old.2
  pure (quark, quark0s)

/-- `itransp`.  `/repo/src/measures/fermions/mesons.cpp:177-184` -/
def itransp (g : Geo) (dir : Dir) (c : Coords) : Nat := (Geo.perpDirs dir).foldl (fun itransp mu => itransp * g.loc mu + c mu) (c dir)

/-- `loc_contr` of a rank, never written before.  `/repo/src/measures/fermions/mesons.cpp:161-189` -/
def loc_contr (g : Geo) (J : Junk) (jz : ℂ) (dir : Dir) (q0s q : EoCol) (rk : Nat) : Nat → ℂ :=
  (eoSites g).foldl (fun loc_contr s =>
    let ivol := (loclxOfLoceo g (coordOfLx rk g.R) s.1 s.2).getD J.ji
    let c : Coords := fun mu => (((locCoordOfLoclx g ivol).getD fun mu => J.jc mu) mu).toNat
    Function.update loc_contr (itransp g dir c) (star (q0s rk s.1 s.2) ⬝ᵥ q rk s.1 s.2)) (fun _ => jz)

/-- the loop on the coordinate of the sink.  `/repo/src/measures/fermions/mesons.cpp:195-202` -/
def addCorr (L nop nflavs iflav_so iflav_si iop_so iop_si source_coord : Nat) (unshiftedGlbContr : Nat → ℂ) (corr : Nat → ℂ) : Nat → ℂ :=
  (List.range L).foldl (fun corr (glb_idir : Nat) =>
    let d_dir := (((glb_idir : Int) - source_coord + L) % L).toNat
    let ic := icombo L nop nflavs iflav_so iflav_si iop_so iop_si d_dir
    Function.update corr ic (corr ic + unshiftedGlbContr glb_idir)) corr

/-- the contractions of a hit.  `/repo/src/measures/fermions/mesons.cpp:157-203` -/
def mesonContract (g : Geo) (J : Junk) (jz : ℂ) (p : MesonPars) (sched : Nat → Nat → List Nat) (source_coord : Nat) (quark quark0s : Nat → EoCol) (corr : Nat → ℂ) : Option (Nat → ℂ) :=
  ((List.range p.nflavs ×ˢ List.range p.nflavs) ×ˢ (List.range p.nop ×ˢ List.range p.nop)).foldlM (fun (corr : Nat → ℂ) t => do
    let idx_so := t.1.1 * p.nop + t.2.1
    let idx_si := t.1.2 * p.nop + t.2.2
    let un ← glb_reduce g.nranks sched (loc_contr g J jz p.dir (quark0s idx_si) (quark idx_so)) g.locVol (g.L p.dir) (g.loc p.dir) (firstCoord g J.jc p.dir)
    pure (addCorr (g.L p.dir) p.nop p.nflavs t.1.1 t.1.2 t.2.1 t.2.2 source_coord un corr)) corr

/-- `compute_meson_corr`.  For each hit the coordinate of the source and the source drawn are given.  `/repo/src/measures/fermions/mesons.cpp:60-206` -/
def compute_meson_corr (jz : ℂ) (p : MesonPars) (sched : Nat → Nat → List Nat) (conf : EoConf) (temp0 : EoCol) (old : (Nat → EoCol) × (Nat → EoCol))
    (hits : List (Nat × EoCol)) : Option (Nat → ℂ) :=
  (hits.foldlM (fun (s : ((Nat → EoCol) × (Nat → EoCol)) × (Nat → ℂ)) (h : Nat × EoCol) => do
    let qq ← mesonHit ok eo J p conf temp0 s.1 h.2
    let corr ← mesonContract g J jz p sched h.1 qq.1 qq.2 s.2
    pure (qq, corr)) (old, fun _ => 0)).map fun (s : ((Nat → EoCol) × (Nat → EoCol)) × (Nat → ℂ)) => s.2

/-! ### Specification -/

/-- one turn of the smearing of a colour field in the three space directions -/
def smearCol (g : Geo) (kappa : ℝ) (U : Coords → Quad) (x : Coords → Col) : Coords → Col := fun c =>
  (1 / (1 + 6 * kappa)) • (x c + ∑ i : Fin 3, kappa • ((U c i.succ) *ᵥ x (tshift g c i.succ 1) + (U (tshift g c i.succ (-1)) i.succ)ᴴ *ᵥ x (tshift g c i.succ (-1))))

/-- the links with the background and the staggered phases -/
def stagLinks (g : Geo) (conf : EoConf) (u1b : EoU1) : Coords → Quad := fun c mu => (globEo g u1b c mu * (eta c mu : ℂ)) • globEo g conf c mu

end

end Nissa.Stag
