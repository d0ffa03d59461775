import Verif.Smearing.PropsLinkSmear

/-! # HEX smearing

Models `sme` and `hex_smear_conf` (`/repo/src/operations/smearing/hex.cpp:19-228`), called by the tool `hex`
(`/repo/tools/conf_transform/smear/hex.cpp:43-64`).

Simplifications: exact real arithmetic; the loops on the sites write only the element of the site itself, from fields which are not
changed by the loop, so that they are the map of their body; the decorated links, stored one level after the other in a single list of
fields, are kept as a list per level; the fields are read with halo and edges updated (`mem`), as done by `communicateDecsForLev`. -/

set_option linter.all false

namespace Nissa.Hex
open Nissa.Lx Nissa.Sten Nissa.Su3f Nissa.Gauge Nissa.Paths Nissa.Clv Nissa.LSm Matrix Complex

noncomputable section

/-- an `LxField<su3>`: rank, site -/
abbrev Fld := Nat → Nat → M3

/-- the fields of a level, `links{0,1,2,3}List` -/
abbrev Lev := Nat → Fld

/-- the addition of the two staples, decorated links `A` and `B`.  `/repo/src/operations/smearing/hex.cpp:46-57` -/
def smeStaple (up dw : Nat → Dir → Nat) (A B : Nat → M3) (iVol : Nat) (mu sigma : Dir) (lOut : M3) : M3 :=
  let muUp := up iVol mu
  let temp := A iVol * B (up iVol sigma)
  let lOut := lOut + temp * (A muUp)ᴴ
  let sigmaDw := dw iVol sigma
  let sigmaDwMuUp := dw muUp sigma
  let temp := (A sigmaDw)ᴴ * B sigmaDw
  lOut + temp * A sigmaDwMuUp

/-- the last loop of `sme`: multiplication of `U` by the exponential.  `/repo/src/operations/smearing/hex.cpp:67-79` -/
def smeLink (alpha : ℝ) (lOut U j0 : M3) : M3 :=
  let temp1 := lOut * Uᴴ
  let temp2 := su3_traceless_anti_hermitian_part temp1 j0
  let Q := su3_traceless_anti_hermitian_part temp2 j0
  let Q := su3_prod_idouble Q (-alpha)
  hermitian_exact_i_exponentiate Q * U

/-- `sme`, with two further arguments `a1,a2`; `V` gives the decorated links.  `/repo/src/operations/smearing/hex.cpp:19-80` -/
def sme (g : Geo) (ji : Nat) (j0 : M3) (alpha : ℝ) (V : Dir → Dir → Dir → Dir → Fld) (U : Fld) (mu a1 a2 : Dir) : Fld := fun rk iVol =>
  let r := coordOfLx rk g.R
  let lOut := dirs.foldl (fun lOut sigma =>
    let toDo := [mu, a1, a2].all (fun i => i ≠ sigma)
    if toDo then
      smeStaple (upT g r ji) (dwT g r ji) (mem g j0 (V sigma mu a1 a2) r) (mem g j0 (V mu a1 a2 sigma) r) iVol mu sigma lOut
    else lOut) 0
  smeLink alpha lOut (mem g j0 U r iVol) j0

/-- index of `links0(mu,...)` in its list.  `/repo/src/operations/smearing/hex.cpp:123-131` -/
def links0 (mu _nu _rho _sigma : Dir) : Nat := mu.val

/-- index of `links1(mu,nu,rho,...)` in its list.  `/repo/src/operations/smearing/hex.cpp:150-162` -/
def links1 (mu nu rho _sigma : Dir) : Nat :=
  let e := 15 ^^^ (2 ^ mu.val + 2 ^ nu.val + 2 ^ rho.val)
  let sigma := (if e = 2 then 1 else 0) + 2 * (if e = 4 then 1 else 0) + 3 * (if e = 8 then 1 else 0)
  let iSigma := sigma - (if sigma > mu.val then 1 else 0)
  iSigma + 3 * mu.val

/-- index of `links2(mu,nu,...)` in its list.  `/repo/src/operations/smearing/hex.cpp:185-195` -/
def links2 (mu nu _rho _sigma : Dir) : Nat :=
  let iNu := nu.val - (if nu > mu then 1 else 0)
  iNu + 3 * mu.val

/-- level 0: the links of the configuration.  `/repo/src/operations/smearing/hex.cpp:133-142` -/
def level0 (conf : Nat → Nat → Quad) (j : Lev) : Lev :=
  dirs.foldl (fun l mu => Function.update l (links0 mu 0 0 0) (fun rk i => conf rk i mu)) j

/-- the loops on `mu,iNu,iRho` with `rho>nu`.  `/repo/src/operations/smearing/hex.cpp:164-171` -/
def triples : List (Dir × Dir × Dir) :=
  dirs.flatMap fun mu => (List.finRange 3).flatMap fun iNu => (List.finRange 2).flatMap fun iRho =>
    let nu := (Geo.perpDirs mu).getD iNu.val 0
    let rho := ((Geo.perp2Dirs mu).getD iNu.val []).getD iRho.val 0
    if rho > nu then [(mu, nu, rho)] else []

/-- level 1.  `/repo/src/operations/smearing/hex.cpp:164-176` -/
def level1 (g : Geo) (ji : Nat) (j0 : M3) (alpha3 : ℝ) (l0 : Lev) (j : Lev) : Lev :=
  triples.foldl (fun l t => Function.update l (links1 t.1 t.2.1 t.2.2 0)
    (sme g ji j0 (alpha3 / 2) (fun a b c d => l0 (links0 a b c d)) (l0 (links0 t.1 0 0 0)) t.1 t.2.1 t.2.2)) j

/-- the loops on `mu,iNu`.  `/repo/src/operations/smearing/hex.cpp:197-200` -/
def pairs : List (Dir × Dir) := dirs.flatMap fun mu => (List.finRange 3).map fun iNu => (mu, (Geo.perpDirs mu).getD iNu.val 0)

/-- level 2.  `/repo/src/operations/smearing/hex.cpp:197-202` -/
def level2 (g : Geo) (ji : Nat) (j0 : M3) (alpha2 : ℝ) (l0 l1 : Lev) (j : Lev) : Lev :=
  pairs.foldl (fun l t => Function.update l (links2 t.1 t.2 0 0)
    (sme g ji j0 (alpha2 / 4) (fun a b c d => l1 (links1 a b c d)) (l0 (links0 t.1 0 0 0)) t.1 t.2 0)) j

/-- index of `links3(mu,...)` in its list.  `/repo/src/operations/smearing/hex.cpp:208-216` -/
def links3 (mu _nu _rho _sigma : Dir) : Nat := mu.val

/-- level 3.  `/repo/src/operations/smearing/hex.cpp:218-219` -/
def level3 (g : Geo) (ji : Nat) (j0 : M3) (alpha1 : ℝ) (l0 l2 : Lev) (j : Lev) : Lev :=
  dirs.foldl (fun l mu => Function.update l (links3 mu 0 0 0)
    (sme g ji j0 (alpha1 / 6) (fun a b c d => l2 (links2 a b c d)) (l0 (links0 mu 0 0 0)) mu 0 0)) j

/-- `hex_smear_conf`: the final content of `sm_conf`; `j` the content of the fields before they are written.
`/repo/src/operations/smearing/hex.cpp:82-228` -/
def hex_smear_conf (g : Geo) (ji : Nat) (j0 : M3) (j : Lev) (conf : Nat → Nat → Quad) (alpha1 alpha2 alpha3 : ℝ) : Nat → Nat → Quad :=
  let l0 := level0 conf j
  let l1 := level1 g ji j0 alpha3 l0 j
  let l2 := level2 g ji j0 alpha2 l0 l1 j
  let l3 := level3 g ji j0 alpha1 l0 l2 j
  fun rk i mu => l3 (links3 mu 0 0 0) rk i

/-! ### Specification, on the global lattice -/

/-- the two staples in the plane `mu,sigma`, with links `A` along `sigma` and `B` along `mu` -/
def decStaple (g : Geo) (A B : Coords → M3) (mu sigma : Dir) (x : Coords) : M3 :=
  A x * B (tshift g x sigma 1) * (A (tshift g x mu 1))ᴴ +
  (A (tshift g x sigma (-1)))ᴴ * B (tshift g x sigma (-1)) * A (tshift g (tshift g x sigma (-1)) mu 1)

/-- `exp(alpha P(staples U^+)) U`, with the staples in the planes `mu,sigma` with `sigma` in `S`, and `P` the projection on the algebra -/
def decSmear (g : Geo) (E : M3 → M3) (alpha : ℝ) (S : Finset Dir) (A B : Dir → Coords → M3) (U : Coords → M3) (mu : Dir) (x : Coords) : M3 :=
  E (alpha • algPart ((∑ sigma ∈ S, decStaple g (A sigma) (B sigma) mu sigma x) * (U x)ᴴ)) * U x

/-- innermost level of HEX (Capitani, Durr, Hoelbling, hep-lat/0607006, with the normalization of 1011.2711): the link along `mu`
smeared only in the direction orthogonal to `mu,nu,rho` -/
def hex1 (g : Geo) (E : M3 → M3) (a3 : ℝ) (U : Coords → Quad) (mu nu rho : Dir) : Coords → M3 :=
  decSmear g E (a3 / 2) (Finset.univ.filter fun s => s ≠ mu ∧ s ≠ nu ∧ s ≠ rho) (fun s x => U x s) (fun _ x => U x mu) (fun x => U x mu) mu

/-- second level of HEX: the link along `mu` smeared in the directions orthogonal to `mu,nu`, with staples of links of the first level -/
def hex2 (g : Geo) (E : M3 → M3) (a2 a3 : ℝ) (U : Coords → Quad) (mu nu : Dir) : Coords → M3 :=
  decSmear g E (a2 / 4) (Finset.univ.filter fun s => s ≠ mu ∧ s ≠ nu) (fun s => hex1 g E a3 U s mu nu) (fun s => hex1 g E a3 U mu nu s)
    (fun x => U x mu) mu

/-- HEX: the link along `mu` smeared in the directions orthogonal to `mu`, with staples of links of the second level -/
def hexSpec (g : Geo) (E : M3 → M3) (a1 a2 a3 : ℝ) (U : Coords → Quad) : Coords → Quad := fun x mu =>
  decSmear g E (a1 / 6) (Finset.univ.filter fun s => s ≠ mu) (fun s => hex2 g E a2 a3 U s mu) (fun s => hex2 g E a2 a3 U mu s)
    (fun x => U x mu) mu x

/-! What is computed instead. -/

/-- the two directions in which `links1(mu,nu,0)` is NOT smeared -/
def padded (mu nu : Dir) : Dir × Dir :=
  if mu = 0 then (2, 3)
  else if nu = 0 then (if mu = 1 then (2, 3) else if mu = 2 then (1, 3) else (1, 2))
  else (nu, 0)

/-- second level computed: direction 0 never enters; the transported link is always the same -/
def code2 (g : Geo) (E : M3 → M3) (a2 a3 : ℝ) (U : Coords → Quad) (mu nu : Dir) : Coords → M3 :=
  decSmear g E (a2 / 4) (Finset.univ.filter fun s => s ≠ mu ∧ s ≠ nu ∧ s ≠ 0) (fun s => hex1 g E a3 U s mu nu)
    (fun _ => hex1 g E a3 U mu (padded mu nu).1 (padded mu nu).2) (fun x => U x mu) mu

/-- third level computed -/
def codeSpec (g : Geo) (E : M3 → M3) (a1 a2 a3 : ℝ) (U : Coords → Quad) : Coords → Quad := fun x mu =>
  decSmear g E (a1 / 6) (Finset.univ.filter fun s => s ≠ mu ∧ s ≠ 0) (fun s => code2 g E a2 a3 U s mu)
    (fun _ => code2 g E a2 a3 U mu (if mu = 0 then 1 else 0)) (fun x => U x mu) mu x

end
end Nissa.Hex
