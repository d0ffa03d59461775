import Verif.Stencil.Plaquette
import Verif.Io.Text

/-! # The tool create_U1

Models `/repo/tools/conf_transform/create/create_U1.cpp`: photon fields written in files with numbered names, and optionally the
U(1) configuration of the last one, its product with an SU(3) configuration, their plaquettes.

Simplifications: the fields are the values given by the random stream and by the root of the propagator (modelled in
`Random/Sitmo.lean` and `FreeTheory/Photon.lean`), a function of the number of the configuration; the formats are those of the patterns: `%%` and `%d` with
width and leading zeros, any other conversion being taken as undefined; the text record of the file is not modelled; exact real arithmetic. -/

set_option linter.all false

namespace Nissa.CrU1
open Nissa.Lx Nissa.Sten Nissa.Su3f Nissa.Gauge Matrix
open Nissa.Text (Str printInt)

/-- reading a format: outside or inside of a conversion, with its flag and width -/
inductive St
  | plain
  | conv (zero : Bool) (width : Nat)

/-- padding on the left up to the width -/
def pad (zero : Bool) (w : Nat) (s : Str) : Str := List.replicate (w - s.length) (if zero then 48 else 32) ++ s

/-- text produced by a format with one integer argument; `none`: the behaviour is undefined, in particular for a second `%d` (the argument
is missing).  `snprintf` at `/repo/tools/conf_transform/create/create_U1.cpp:112` -/
def fmt : Str → St → Option Nat → Option Str
  | [], .plain, _ => some []
  | [], .conv _ _, _ => none
  | c :: l, .plain, a => if c = 37 then fmt l (.conv false 0) a else (fmt l .plain a).map (c :: ·)
  | c :: l, .conv z w, a =>
    if c = 37 then (if z = false ∧ w = 0 then (fmt l .plain a).map (37 :: ·) else none)
    else if c = 100 then a.bind fun i => (fmt l .plain none).map (pad z w (printInt i) ++ ·)
    else if c = 48 ∧ w = 0 then fmt l (.conv true 0) a
    else if 48 ≤ c ∧ c ≤ 57 then fmt l (.conv z (10 * w + (c - 48))) a
    else none

/-- name of the file: 127 characters at most.  `create_U1.cpp:111-112` -/
def outPath (p : Str) (i : Nat) : Option Str := (fmt p .plain (some i)).map (List.take 127)

/-- lower case -/
def lower (c : Nat) : Nat := if 65 ≤ c ∧ c ≤ 90 then c + 32 else c

/-- `strncasecmp(a,b,128)==0`.  `create_U1.cpp:113` -/
def sameNoCase (a b : Str) : Bool := (a.take 128).map lower == (b.take 128).map lower

/-- permutation of the directions of the written field.  `create_U1.cpp:14-22` -/
def permuted {R : Type} (junk f : Dir → R) : Dir → R := dirs.foldl (fun p mu => Function.update p (mu + 3) (f mu)) junk

/-- end of the first part -/
inductive Res (F : Type)
  | undefined
  /-- the pattern is refused; the files written before it -/
  | crash (files : Str → Option F)
  | done (files : Str → Option F)

/-- the loop on the configurations.  `create_U1.cpp:79-141` -/
def loop {F : Type} (p : Str) (field : Nat → F) : Nat → Nat → (Str → Option F) → Res F
  | 0, _, files => .done files
  | n + 1, i, files =>
    match outPath p i with
    | none => .undefined
    | some name => if sameNoCase name p then .crash files else loop p field n (i + 1) (Function.update files name (some (field i)))

/-- content of the field after the loop: `none` when it has never been written.  `create_U1.cpp:68-79,96` -/
def lastField {F : Type} (field : Nat → F) (nConfs : Int) : Option F :=
  if nConfs ≤ 0 then none else some (field (nConfs - 1).toNat)

/-- `complex_iexp` and `su3_put_to_diag_complex`.  `create_U1.cpp:173-176`, `/repo/src/new_types/complex.hpp:229-235`,
`/repo/src/new_types/su3_op.hpp:113-122` -/
noncomputable def u1Link (e a : ℝ) : M3 := Matrix.of fun i j => if i = j then (⟨Real.cos (e * a), Real.sin (e * a)⟩ : ℂ) else 0

/-- the U(1) configuration: rank, local site, direction.  `create_U1.cpp:163-178` -/
noncomputable def u1Conf (e : ℝ) (photon : Nat → Nat → Dir → ℂ) : Nat → Nat → Quad := fun rk i mu => u1Link e (photon rk i mu).re

/-- `su3_prodassign_su3` on all the links.  `create_U1.cpp:195-203` -/
def prodConf (conf u1 : Nat → Nat → Quad) : Nat → Nat → Quad := fun rk i mu => conf rk i mu * u1 rk i mu

/-- what is printed and written by the second part -/
structure Out where
  pU1 : ℝ
  pSU3 : Option ℝ
  pU3 : Option ℝ
  written : Option (Nat → Nat → Quad)

/-- the second part: the outer `none` if the field has never been written, the inner one if nothing is done.  `create_U1.cpp:161-216` -/
noncomputable def second (g : Geo) (ji : Nat) (jv : Quad) (sched : Nat → Nat → List Nat) (e : ℝ) (photon : Option (Nat → Nat → Dir → ℂ))
    (su3 : Option (Nat → Nat → Quad)) (u3 : Bool) : Option (Option Out) :=
  open Classical in
  if e = 0 then some none else
  photon.map fun A =>
    let u1 := u1Conf e A
    let pU1 := average_plaquette_lx_conf g ji jv sched u1
    match su3 with
    | none => some ⟨pU1, none, none, none⟩
    | some conf =>
      let prod := prodConf conf u1
      some ⟨pU1, some (average_plaquette_lx_conf g ji jv sched conf), some (average_plaquette_lx_conf g ji jv sched prod), if u3 then some prod else none⟩

/-! ### Specification -/

/-- a pattern has one integer conversion: it needs the argument and is then right -/
def HasNumber (p : Str) : Prop := fmt p .plain none = none ∧ (fmt p .plain (some 0)).isSome

/-- circulation of a real field around the square at `x` -/
def flux (g : Geo) (A : Coords → Dir → ℝ) (x : Coords) (mu nu : Dir) : ℝ :=
  A x mu + A (tshift g x mu 1) nu - A (tshift g x nu 1) mu - A x nu

/-- the six planes -/
def sixPlanes : List (Dir × Dir) := [(0, 1), (0, 2), (0, 3), (1, 2), (1, 3), (2, 3)]

end Nissa.CrU1
