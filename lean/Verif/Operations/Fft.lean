/-
Model of the Fourier transform of a field: /repo/src/operations/fft.hpp:26-182 (fft4d).
The one-dimensional transform of the library (FFTW or cuFFT) is modelled by its definition, fft.hpp:145-156, in exact arithmetic.
-/
import Verif.Comm.PropsLayouts
import Mathlib.RingTheory.RootsOfUnity.Complex
import Mathlib.Algebra.BigOperators.Field
set_option linter.all false

namespace Nissa.Fft
open Nissa.Lx Nissa.A2A Nissa.Layouts

/-- e^{sign*2*pi*i/n} -/
noncomputable def root (sign : Int) (n : Nat) : ℂ := Complex.exp (2 * Real.pi * Complex.I / n) ^ sign

/-- value of a site: `ncpp` complex numbers, fft.hpp:47-48 -/
abbrev Site (ncpp : Nat) := Fin ncpp → ℂ

/-- execution of the plan at the offset of each orthogonal site, fft.hpp:148-156: one-dimensional transforms, in place, of the `L mu`
points following `ioff*L mu`, for each of the `ncpp` components -/
noncomputable def lines {ncpp : Nat} (g : Geo) (mu : Dir) (sign : Int) (buf : Nat → Nat → Site ncpp) (rank j : Nat) : Site ncpp :=
  if ((j / g.L mu : Nat) : Int) < perpSize g mu rank then
    fun icpp => ∑ x ∈ Finset.range (g.L mu), root sign (g.L mu) ^ (j % g.L mu * x) * buf rank (j / g.L mu * g.L mu + x) icpp
  else buf rank j

/-- what is done in one direction, fft.hpp:59-171: the direction is made local, transformed, and the field is remapped back. The number
of elements remapped back is locd_size_per_dir, remap_vector.hpp:151-153. -/
def DirRun {ncpp : Nat} (g : Geo) (X : Nat → Nat → Coords) (sign : Int) (mu : Dir) (f f' : Nat → Nat → Site ncpp) : Prop :=
  ∃ junk junk' order order' out buf, (∀ r, r < g.nranks → (order r).Perm (List.range g.locVol)) ∧ (∀ r, r < g.nranks → (order' r).Perm (List.range (locdSize g mu r).toNat)) ∧
    RunsTo g.nranks (remapList g.nranks (fun _ => g.locVol) (locDirMaker g X mu)) junk junk' order f out buf ∧
    RunsTo g.nranks (remapList g.nranks (fun r => (locdSize g mu r).toNat) (locDirUnmaker g mu)) junk junk' order' (lines g mu sign buf) f f'

/-- the loop on the directions, fft.hpp:57-60 -/
inductive DirsRun {ncpp : Nat} (g : Geo) (X : Nat → Nat → Coords) (sign : Int) (sel : Dir → Bool) : List Dir → (Nat → Nat → Site ncpp) → (Nat → Nat → Site ncpp) → Prop
  | nil (f) : DirsRun g X sign sel [] f f
  | skip (mu ds f f') : sel mu = false → DirsRun g X sign sel ds f f' → DirsRun g X sign sel (mu :: ds) f f'
  | step (mu ds f f1 f') : sel mu = true → DirRun g X sign mu f f1 → DirsRun g X sign sel ds f1 f' → DirsRun g X sign sel (mu :: ds) f f'

/-- norm accumulated along the directions, fft.hpp:50, 173 -/
noncomputable def norm (L : Coords) (sel : Dir → Bool) : ℂ := dirs.foldl (fun norm mu => if sel mu then norm * L mu else norm) 1

/-- fft4d, fft.hpp:26-182; with `normalize` the field is divided by the norm -/
def Fft4d {ncpp : Nat} (g : Geo) (X : Nat → Nat → Coords) (sel : Dir → Bool) (sign : Int) (normalize : Bool) (f res : Nat → Nat → Site ncpp) : Prop :=
  ∃ f', DirsRun g X sign sel dirs f f' ∧ res = if normalize then (fun r i icpp => f' r i icpp / norm g.L sel) else f'

end Nissa.Fft
