/-
Model of the stochastic sources: /repo/src/base/random.cpp:219-345. The loops over the local sites use one generator for each site.
-/
import Verif.Random.Ran2
set_option linter.all false

namespace Nissa.Ran2
open Nissa.Lx (Coords Geo Dir)

/-- body of a site loop: from the global coordinates and the generator of the site, the entries written there and the generator left;
`none` as value: the site is not touched -/
abbrev SiteKernel (α : Type) := Coords → Gen → Option (Option α × Gen)

/-- state of the loops of a rank: local generators and local part of the field -/
structure LocState (α : Type) where
  gen : Nat → Option Gen
  field : Nat → α

/-- one iteration of the PAR loops, random.cpp:231-245, 258-270, 282-294, 306-317, 330-342 -/
def siteStep {α : Type} (K : SiteKernel α) (coord : Nat → Option Coords) (s : LocState α) (ivol : Nat) : Option (LocState α) := do
  let c ← coord ivol
  let g ← s.gen ivol
  let (v, g') ← K c g
  some ⟨Function.update s.gen ivol (some g'), match v with | none => s.field | some a => Function.update s.field ivol a⟩

/-- the whole loop of a rank, in any order `sites` of the local sites; the field is first reset -/
def siteLoop {α : Type} (zero : α) (K : SiteKernel α) (coord : Nat → Option Coords) (sites : List Nat) (s : LocState α) : Option (LocState α) :=
  sites.foldlM (siteStep K coord) ⟨s.gen, fun _ => zero⟩

/-- `n` calls in sequence of comp_get_rnd on the same generator -/
def drawN {β : Type} (comp : Gen → Option (β × Gen)) : Nat → Gen → Option (List β × Gen)
  | 0, g => some ([], g)
  | n + 1, g => do
    let (b, g) ← comp g
    let (l, g) ← drawN comp n g
    some (b :: l, g)

/-- generate_undiluted_source, random.cpp:276-296, and with `n`=3 components generate_fully_undiluted_lx_source, 299-319 (there `dir` is
an argument) -/
def undilutedKernel {β : Type} (comp : Gen → Option (β × Gen)) (n : Nat) (dir : Dir) (twall : Int) : SiteKernel (List β) := fun c g =>
  if (c dir : Int) = twall ∨ twall < 0 then do
    let (l, g) ← drawN comp n g
    some (some l, g)
  else some (none, g)

/-- generate_colorspindiluted_source, random.cpp:222-247: the same number on the whole diagonal of the 12x12 matrix -/
def dilutedKernel {β : Type} (zero : β) (comp : Gen → Option (β × Gen)) (twall : Int) : SiteKernel (Fin 12 → Fin 12 → β) := fun c g =>
  if (c 0 : Int) = twall ∨ twall < 0 then do
    let (b, g) ← comp g
    some (some (fun i j => if i = j then b else zero), g)
  else some (none, g)

/-- Z2 numbers, random.hpp:145-151: (real, imaginary) -/
def compZ2 (g : Gen) : Option ((Int × Int) × Gen) := do
  let (a, g) ← pmOne g
  some ((a, 0), g)

/-- Z4 numbers times sqrt(2), random.hpp:161-167 -/
def compZ4 (g : Gen) : Option ((Int × Int) × Gen) := do
  let (a, g) ← pmOne g
  let (b, g) ← pmOne g
  some ((a, b), g)

/-- a sequence of sources generated one after the other on a rank: the local fields obtained -/
def history {α : Type} (zero : α) (coord : Nat → Option Coords) (sites : List Nat) : List (SiteKernel α) → (Nat → Option Gen) → Option (List (Nat → α) × (Nat → Option Gen))
  | [], gen => some ([], gen)
  | K :: Ks, gen => do
    let s ← siteLoop zero K coord sites ⟨gen, fun _ => zero⟩
    let (l, gen) ← history zero coord sites Ks s.gen
    some (s.field :: l, gen)

end Nissa.Ran2
