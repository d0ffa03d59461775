import Mathlib.NumberTheory.Zsqrtd.GaussianInt
import Mathlib.Data.Matrix.Mul
import Mathlib.LinearAlgebra.Matrix.Notation
import Mathlib.LinearAlgebra.Matrix.ConjTranspose
import Mathlib.Analysis.Complex.Basic
import Mathlib.Tactic.Ring
import Mathlib.Tactic.FinCases

/-!
# Sparse spin matrices

Model of `/repo/src/new_types/dirac.hpp`, `/repo/src/new_types/dirac.cpp` and of the parts of
`/repo/src/new_types/spin.hpp` which combine a sparse matrix with a dense one.

Simplifications: the floating point numbers are exact (`ℂ`); the member `pos` is taken in the range `0..3` (it is an
`int` in the code); outputs are distinct from inputs (see `Color/ComplexMem.lean` for aliasing of the complex kernels).
-/

set_option linter.all false

namespace Nissa.Gamma

/-- A spin matrix stored with one entry per row: column and value.  `/repo/src/new_types/dirac.hpp:25-30` -/
structure DiracMatr (K : Type) where
  pos : Fin 4 → Fin 4
  entr : Fin 4 → K

/-- A dense 4x4 spin matrix, `spinspin`.  `/repo/src/new_types/spin.hpp:25` -/
abbrev SpinSpin (K : Type) := Matrix (Fin 4) (Fin 4) K

/-- `init_dirac`: position, real and imaginary part of each row.  `/repo/src/new_types/dirac.hpp:45-66`
(here for the integer literals used to fill the table) -/
def initDirac (p0 : Fin 4) (r0 i0 : Int) (p1 : Fin 4) (r1 i1 : Int) (p2 : Fin 4) (r2 i2 : Int) (p3 : Fin 4) (r3 i3 : Int) :
    DiracMatr GaussianInt where
  pos := ![p0, p1, p2, p3]
  entr := ![⟨r0, i0⟩, ⟨r1, i1⟩, ⟨r2, i2⟩, ⟨r3, i3⟩]

/-- The first sixteen `base_gamma`.  `/repo/src/new_types/dirac.cpp:40-58` -/
def table : Fin 16 → DiracMatr GaussianInt := ![
  initDirac 0 1 0    1 1 0    2 1 0    3 1 0,
  initDirac 3 0 (-1) 2 0 (-1) 1 0 1    0 0 1,
  initDirac 3 (-1) 0 2 1 0    1 1 0    0 (-1) 0,
  initDirac 2 0 (-1) 3 0 1    0 0 1    1 0 (-1),
  initDirac 2 (-1) 0 3 (-1) 0 0 (-1) 0 1 (-1) 0,
  initDirac 0 1 0    1 1 0    2 (-1) 0 3 (-1) 0,
  initDirac 3 0 1    2 0 1    1 0 1    0 0 1,
  initDirac 3 1 0    2 (-1) 0 1 1 0    0 (-1) 0,
  initDirac 2 0 1    3 0 (-1) 0 0 1    1 0 (-1),
  initDirac 2 1 0    3 1 0    0 (-1) 0 1 (-1) 0,
  initDirac 1 0 (-1) 0 0 (-1) 3 0 1    2 0 1,
  initDirac 1 (-1) 0 0 1 0    3 1 0    2 (-1) 0,
  initDirac 0 0 (-1) 1 0 1    2 0 1    3 0 (-1),
  initDirac 1 0 1    0 0 1    3 0 1    2 0 1,
  initDirac 1 1 0    0 (-1) 0 3 1 0    2 (-1) 0,
  initDirac 0 0 1    1 0 (-1) 2 0 1    3 0 (-1)]

section Ops
variable {K : Type}

/-- `dirac_summ`; `none` is the CRASH.  `/repo/src/new_types/dirac.hpp:70-84` -/
def diracSumm [Add K] (a b : DiracMatr K) : Option (DiracMatr K) :=
  if ∀ i, a.pos i = b.pos i then some ⟨a.pos, fun i => a.entr i + b.entr i⟩ else none

/-- `dirac_subt`; `none` is the CRASH.  `/repo/src/new_types/dirac.hpp:86-100` -/
def diracSubt [Sub K] (a b : DiracMatr K) : Option (DiracMatr K) :=
  if ∀ i, a.pos i = b.pos i then some ⟨a.pos, fun i => a.entr i - b.entr i⟩ else none

/-- `dirac_prod` and `operator*`.  `/repo/src/new_types/dirac.hpp:103-132` -/
def diracProd [Mul K] (a b : DiracMatr K) : DiracMatr K where
  pos := fun ig1 => b.pos (a.pos ig1)
  entr := fun ig1 => a.entr ig1 * b.entr (a.pos ig1)

/-- `dirac_prod_complex`, `dirac_compl_prod`.  `/repo/src/new_types/dirac.hpp:160-172,194-208` -/
def diracProdComplex [Mul K] (a : DiracMatr K) (c : K) : DiracMatr K where
  pos := a.pos
  entr := fun i => a.entr i * c

/-- one step of the loop of `dirac_herm`: row `id` of the input becomes column `id` of the output.
`/repo/src/new_types/dirac.hpp:179-187` -/
def hermStep [Star K] (a : DiracMatr K) (out : DiracMatr K) (id : Fin 4) : DiracMatr K where
  pos := Function.update out.pos (a.pos id) id
  entr := Function.update out.entr (a.pos id) (star (a.entr id))

/-- `dirac_herm`: crashes if two rows have the same column, otherwise fills the output row by row, starting from the
uninitialised local variable `junk`.  `/repo/src/new_types/dirac.hpp:175-191` -/
def diracHerm [Star K] (junk a : DiracMatr K) : Option (DiracMatr K) :=
  if ∀ i j : Fin 4, i < j → a.pos i ≠ a.pos j then
    some ([0, 1, 2, 3].foldl (hermStep a) junk)
  else none

end Ops

/-- `dirac_prod_double`.  `/repo/src/new_types/dirac.hpp:134-145` -/
def diracProdDouble (a : DiracMatr ℂ) (r : ℝ) : DiracMatr ℂ where
  pos := a.pos
  entr := fun i => ⟨(a.entr i).re * r, (a.entr i).im * r⟩

/-- `dirac_prod_idouble`.  `/repo/src/new_types/dirac.hpp:147-158`, with `complex_prod_idouble`
`/repo/src/new_types/complex.hpp:247-259` -/
def diracProdIdouble (a : DiracMatr ℂ) (r : ℝ) : DiracMatr ℂ where
  pos := a.pos
  entr := fun i => ⟨-(a.entr i).im * r, (a.entr i).re * r⟩

/-- The matrices as the code holds them, with floating point entries -/
def toC (a : DiracMatr GaussianInt) : DiracMatr ℂ where
  pos := a.pos
  entr := fun i => (GaussianInt.toComplex (a.entr i))

/-- `base_gamma[0..18]`, the last three computed as products.  `/repo/src/new_types/dirac.cpp:43-65` -/
noncomputable def baseGamma (k : Fin 19) : DiracMatr ℂ :=
  if h : (k : ℕ) < 16 then toC (table ⟨k, h⟩)
  else if (k : ℕ) = 16 then diracProd (toC (table 4)) (toC (table 6))
  else if (k : ℕ) = 17 then diracProd (toC (table 4)) (toC (table 7))
  else diracProd (toC (table 4)) (toC (table 8))

/-- `iGammaOfMu`.  `/repo/src/geometry/geometry_lx.hpp:239-244` -/
def iGammaOfMu : Fin 4 → Fin 19 := ![4, 1, 2, 3]

/-- `Pplus`: diagonal with entries `(1+i)/√2` and `(1-i)/√2`.  `/repo/src/new_types/dirac.cpp:60` -/
noncomputable def pPlus : DiracMatr ℂ where
  pos := ![0, 1, 2, 3]
  entr := ![⟨1/√2, 1/√2⟩, ⟨1/√2, 1/√2⟩, ⟨1/√2, -(1/√2)⟩, ⟨1/√2, -(1/√2)⟩]

/-- `Pminus`.  `/repo/src/new_types/dirac.cpp:61` -/
noncomputable def pMinus : DiracMatr ℂ where
  pos := ![0, 1, 2, 3]
  entr := ![⟨1/√2, -(1/√2)⟩, ⟨1/√2, -(1/√2)⟩, ⟨1/√2, 1/√2⟩, ⟨1/√2, 1/√2⟩]

/-- `lmunu`.  `/repo/src/new_types/dirac.cpp:68` -/
def lmunu : Fin 6 → Fin 19 := ![10, 11, 12, 15, 14, 13]
/-- `cmunu`.  `/repo/src/new_types/dirac.cpp:69` -/
def cmunu : Fin 6 → ℤ := ![1, 1, 1, 1, -1, 1]

/-- `smunu_pos`, `smunu_entr`.  `/repo/src/new_types/dirac.cpp:70-77` -/
noncomputable def smunu (imunu : Fin 6) : DiracMatr ℂ where
  pos := (baseGamma (lmunu imunu)).pos
  entr := fun d1 => ⟨cmunu imunu * ((baseGamma (lmunu imunu)).entr d1).re,
                     cmunu imunu * ((baseGamma (lmunu imunu)).entr d1).im⟩

/-! ### Operations with dense matrices -/

section Dense
variable {K : Type}

/-- write one element of a dense matrix -/
def setEl (m : SpinSpin K) (i j : Fin 4) (v : K) : SpinSpin K :=
  fun i' j' => if i' = i ∧ j' = j then v else m i' j'

/-- `spinspin_put_to_zero`.  `/repo/src/new_types/spin.hpp:129-135` -/
def putToZero [Zero K] : SpinSpin K := fun _ _ => 0

/-- `spinspin_put_to_id`, through `spinspin_put_to_diag_complex`.  `/repo/src/new_types/spin.hpp:137-146,167-174` -/
def putToId [Zero K] [One K] : SpinSpin K :=
  [0, 1, 2, 3].foldl (fun m id => setEl m id id 1) putToZero

/-- `spinspin_dirac_summ_the_prod_complex`, and the versions with a real (`_double`) or imaginary (`_idouble`)
factor, for which `c` is `(r,0)` or `(0,r)`.  `/repo/src/new_types/spin.hpp:428-459` -/
def summTheProdComplex [Add K] [Mul K] (out : SpinSpin K) (a : DiracMatr K) (c : K) : SpinSpin K :=
  [0, 1, 2, 3].foldl (fun m ig => setEl m ig (a.pos ig) (m ig (a.pos ig) + a.entr ig * c)) out

/-- `spinspin_dirac_subt_the_prod_complex`.  `/repo/src/new_types/spin.hpp:461-465` -/
def subtTheProdComplex [Sub K] [Mul K] (out : SpinSpin K) (a : DiracMatr K) (c : K) : SpinSpin K :=
  [0, 1, 2, 3].foldl (fun m ig => setEl m ig (a.pos ig) (m ig (a.pos ig) - a.entr ig * c)) out

/-- `unsafe_dirac_prod_spinspin`.  `/repo/src/new_types/spin.hpp:483-492` -/
def diracProdSpinspin [Mul K] (m : DiracMatr K) (s : SpinSpin K) : SpinSpin K :=
  fun id1 id2 => m.entr id1 * s (m.pos id1) id2

/-- `unsafe_dirac_prod_spinspin_transp`.  `/repo/src/new_types/spin.hpp:515-519` -/
def diracProdSpinspinTransp [Mul K] (m : DiracMatr K) (s : SpinSpin K) : SpinSpin K :=
  fun id1 id2 => m.entr id1 * s id2 (m.pos id1)

/-- `unsafe_dirac_prod_spinspin_dag`.  `/repo/src/new_types/spin.hpp:524-528` -/
def diracProdSpinspinDag [Mul K] [Star K] (m : DiracMatr K) (s : SpinSpin K) : SpinSpin K :=
  fun id1 id2 => m.entr id1 * star (s id2 (m.pos id1))

/-- the double loop over `id1`, `id2`, in the order of the code -/
def allPairs : List (Fin 4 × Fin 4) :=
  [0, 1, 2, 3].flatMap fun i => [0, 1, 2, 3].map fun j => (i, j)

/-- `unsafe_spinspin_prod_dirac`: zero, then *assignment* of `out[id1][m.pos[id2]]`.
`/repo/src/new_types/spin.hpp:533-544` -/
def spinspinProdDirac [Zero K] [Mul K] (s : SpinSpin K) (m : DiracMatr K) : SpinSpin K :=
  allPairs.foldl (fun o p => setEl o p.1 (m.pos p.2) (s p.1 p.2 * m.entr p.2)) putToZero

/-- `unsafe_dirac_prod_spin`.  `/repo/src/new_types/spin.hpp:639-640` -/
def diracProdSpin [Mul K] (m : DiracMatr K) (s : Fin 4 → K) : Fin 4 → K :=
  fun id1 => m.entr id1 * s (m.pos id1)

/-- `unsafe_spin_prod_dirac`: zero, then sum.  `/repo/src/new_types/spin.hpp:642-643` -/
def spinProdDirac [Zero K] [Add K] [Mul K] (s : Fin 4 → K) (m : DiracMatr K) : Fin 4 → K :=
  [0, 1, 2, 3].foldl (fun o id1 => Function.update o (m.pos id1) (o (m.pos id1) + s id1 * m.entr id1)) (fun _ => 0)

/-- `trace_dirac_prod_spinspin`, `trace_spinspin_with_dirac`.  `/repo/src/new_types/spin.hpp:325-334,626-636` -/
def traceDiracProdSpinspin [Zero K] [Add K] [Mul K] (m : DiracMatr K) (s : SpinSpin K) : K :=
  [0, 1, 2, 3].foldl (fun c id => c + m.entr id * s (m.pos id) id) 0

end Dense

/-- `opg[mu]`.  `/repo/src/new_types/dirac.cpp:80-87` -/
noncomputable def opg (mu : Fin 4) : SpinSpin ℂ := summTheProdComplex putToId (baseGamma (iGammaOfMu mu)) 1
/-- `omg[mu]`.  `/repo/src/new_types/dirac.cpp:80-87` -/
noncomputable def omg (mu : Fin 4) : SpinSpin ℂ := summTheProdComplex putToId (baseGamma (iGammaOfMu mu)) (-1)

/-- `list_prb`.  `/repo/src/new_types/spin.hpp:658` -/
def listPrb : Fin 4 → Fin 4 := ![0, 1, 2, 3]
/-- `list_mrb`.  `/repo/src/new_types/spin.hpp:658` -/
def listMrb : Fin 4 → Fin 4 := ![3, 2, 1, 0]
/-- `so_shft`.  `/repo/src/new_types/spin.hpp:659` -/
def soShft : Fin 4 → Fin 4 := ![0, 2, 0, 2]
/-- `si_shft`.  `/repo/src/new_types/spin.hpp:659` -/
def siShft : Fin 4 → Fin 4 := ![0, 0, 2, 2]

/-- `rotate_spinspin_to_physical_basis`, `ir=rsi*2+rso`.  `/repo/src/new_types/spin.hpp:656-673` -/
def rotatePhys {K : Type} [Mul K] [Neg K] (I : K) (s : SpinSpin K) (rsi rso : Fin 2) : SpinSpin K :=
  let ir : Fin 4 := ⟨rsi.val * 2 + rso.val, by omega⟩
  let prb := listPrb ir
  let mrb := listMrb ir
  [((0 : Fin 4), (0 : Fin 4)), (0, 1), (1, 0), (1, 1)].foldl (fun s d =>
    let pso := d.1 + soShft prb; let psi := d.2 + siShft prb
    let mso := d.1 + soShft mrb; let msi := d.2 + siShft mrb
    let s1 := setEl s pso psi (I * s pso psi)
    setEl s1 mso msi (-(I * s1 mso msi))) s

/-! ### Specification: the dense matrix of a sparse one -/

/-- the 4x4 matrix which a sparse matrix stands for -/
def dense {K : Type} [Zero K] (a : DiracMatr K) : Matrix (Fin 4) (Fin 4) K :=
  Matrix.of fun i j => if j = a.pos i then a.entr i else 0

end Nissa.Gamma
