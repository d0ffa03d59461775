/- C36: cases in which the Fourier transform is right without conditions on the remappings. -/
import Verif.Operations.PropsFft
set_option linter.all false

namespace Nissa.Fft
open Nissa.Lx Nissa.A2A Nissa.Layouts

theorem one_rank_dirs (g : Geo) (ok : g.Ok) (X : Nat → Nat → Coords) (hX : CoordTable g X) (hR : ∀ mu, g.R mu = 1) (mu : Dir) : DirOk g X mu := by
  have : ∃ d, (perp mu).head? = some d := by revert mu; decide
  obtain ⟨d, h⟩ := this
  exact C25_slabs g ok X hX mu d h (fun nu _ => hR nu)

theorem time_slab_dirs (g : Geo) (ok : g.Ok) (X : Nat → Nat → Coords) (hX : CoordTable g X) (hR : ∀ mu, mu ≠ 0 → g.R mu = 1) (mu : Dir) (hmu : mu ≠ 0) : DirOk g X mu :=
  C25_slabs g ok X hX mu 0 (by revert mu; decide) hR

/-- C36, on one rank: the transform of any field, in any selection of the directions, with either sign, exists and is the discrete Fourier transform; the transform with the opposite
sign and the normalization gives back the field -/
theorem C36_one_rank {ncpp : Nat} (g : Geo) (ok : g.Ok) (X : Nat → Nat → Coords) (hX : CoordTable g X) (hR : ∀ mu, g.R mu = 1) (sel : Dir → Bool) (sign : Int)
    (phi : Coords → Site ncpp) (f : Nat → Nat → Site ncpp) (hf : Represents g X phi f) :
    (∃ res, Fft4d g X sel sign false f res) ∧ (∀ res, Fft4d g X sel sign false f res → Represents g X (dftSel g.L sign sel phi) res) ∧
    (sign = 1 ∨ sign = -1 → ∀ res back, Fft4d g X sel sign false f res → Fft4d g X sel (-sign) true res back → Represents g X phi back) := by
  have hd : ∀ mu, sel mu = true → DirOk g X mu := fun mu _ => one_rank_dirs g ok X hX hR mu
  obtain ⟨h1, h2⟩ := C36_fft4d_partial g ok X hX sel sign false hd phi f hf
  refine ⟨h1, fun res hr => ?_, fun hs res back hr hb => ?_⟩
  · simpa using h2 res hr
  · intro r i h3 h4
    rw [C36_inverse_partial g ok X hX sel sign hs hd f res back hr hb r i h3 h4]
    exact hf r i h3 h4

/-- C36, when only the time is divided among the ranks: the same for any selection of spatial directions -/
theorem C36_time_slabs {ncpp : Nat} (g : Geo) (ok : g.Ok) (X : Nat → Nat → Coords) (hX : CoordTable g X) (hR : ∀ mu, mu ≠ 0 → g.R mu = 1) (sel : Dir → Bool)
    (h0 : sel 0 = false) (sign : Int) (phi : Coords → Site ncpp) (f : Nat → Nat → Site ncpp) (hf : Represents g X phi f) :
    (∃ res, Fft4d g X sel sign false f res) ∧ (∀ res, Fft4d g X sel sign false f res → Represents g X (dftSel g.L sign sel phi) res) ∧
    (sign = 1 ∨ sign = -1 → ∀ res back, Fft4d g X sel sign false f res → Fft4d g X sel (-sign) true res back → Represents g X phi back) := by
  have hd : ∀ mu, sel mu = true → DirOk g X mu := fun mu hs => time_slab_dirs g ok X hX hR mu (fun e => by rw [e, h0] at hs; cases hs)
  obtain ⟨h1, h2⟩ := C36_fft4d_partial g ok X hX sel sign false hd phi f hf
  refine ⟨h1, fun res hr => ?_, fun hs res back hr hb => ?_⟩
  · simpa using h2 res hr
  · intro r i h3 h4
    rw [C36_inverse_partial g ok X hX sel sign hs hd f res back hr hb r i h3 h4]
    exact hf r i h3 h4

/-- instances: the 8x4x6x2 lattice on one rank; the same with the time divided among four ranks -/
example : (∃ X, (Geo.mk ![8, 4, 6, 2] ![1, 1, 1, 1]).Ok ∧ CoordTable ⟨![8, 4, 6, 2], ![1, 1, 1, 1]⟩ X) ∧
    ∃ X, (Geo.mk ![8, 4, 6, 2] ![4, 1, 1, 1]).Ok ∧ CoordTable ⟨![8, 4, 6, 2], ![4, 1, 1, 1]⟩ X ∧ ∀ mu, mu ≠ 0 → (![4, 1, 1, 1] : Coords) mu = 1 :=
  ⟨⟨_, by decide, siteCoords_table _ (by decide)⟩, _, by decide, siteCoords_table _ (by decide), by decide⟩

end Nissa.Fft
