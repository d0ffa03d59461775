/-
Model of the input file of the configuration generator: the grammar that scans it
(projects/generate_confs/parser.ypp, tokenizer.lpp) and the functions that print the scanned
parameters back (`#PrintScannedInput`, `#PrintFullInput`, driver.hpp and the `get_str` of every
parameter block).

Simplifications, common to the whole file:
* the text is a list of tokens: one per keyword, one for `=`, one per number with its sign, one per
  quoted text, one per braced list.  Arithmetic in the values, comments and `#Print` are left out.
* a floating point parameter is the rational number written by the user; printing it keeps six
  significant digits, the default of `std::ostringstream`.
* integers are not bounded.
* of the measurements, the ones of this file: mesons, zumba, ellesettete, plaquette and Polyakov
  loop, topological charge, Polyakov loop correlators.  The others are left out.
* the LALR automaton of bison is modelled by the stack of the blocks that are open: a keyword goes to
  the innermost open block that accepts it (bison shifts on a conflict), the blocks inside are closed.
-/
import Mathlib.Data.Int.Log
import Mathlib.Data.Rat.Floor
import Mathlib.Algebra.Order.Round
set_option linter.all false
namespace Nissa.Scan

/-- Keywords, tokenizer.lpp lines 98-338 (those of the modelled part); `bad` is `TK_INVALID_STRING`
(line 349). -/
inductive Kw
  | tag | geometry | T | L | LX | LY | LZ | run | walltime | seed
  | theory | beta | gaugeAction | wilson | tlSym | iwasaki
  | topoPotential | none_ | ordinary | meta_ | theta | coeff | width | barr | forceOut
  | wellTempering | bend
  | quark | degeneracy | discretiz | rootStag | overlap | rootTMClov | mass | massOverlap | kappa
  | cSW | rePotCh | imPotCh | elecCharge
  | bkgrdEMField | Ex | Ey | Ez | Bx | By | Bz
  | stout | nLevels | rho | cooling | nSteps | ape | alpha | hyp | alphas
  | wFlow | nFlows | nRecu | flowStep
  | smoothMethod | spaceOrTime | space | time | spaceTime | measEachNSmooth
  | each | after | path | residue | iTheory | nCopies | nHits | noiseType
  | allPlusOne | allMinusOne | unif | z2 | z3 | z4 | gauss
  | measMesonCorrs | operators | dir | gaussKappa | gaussNiterSrc | gaussNiterSnk
  | measZumba | maxOrder
  | measElleSettete | method | numerical | analytical | epsilon | tasteChannel
  | gammaID | gamma5 | gamma1 | gamma2 | gamma3 | ax1 | ax2 | ax3
  | sigma01 | sigma02 | sigma12 | sigma03 | sigma13 | sigma23
  | measPlaqPol | useSmooth | measPlaq | measEnergy | measPoly
  | measTop | measCorr | corrPath | timeMomRep | measLuppoli
  | forceUnquenched | evolution | idSeaTheory | nTrajTot | skipMetro | trajLength | actResidue
  | mdResidue | nSubSteps | nPseudoFerms
  | quenchedEvolution | useHMC | nHBSweeps | nHBHits | nOVSweeps | nOVHits
  | gaugeConf | storePath | storeEach | storeRunning | startCond | hot | cold
  | analysis | confList
  | bad
deriving DecidableEq, Repr

/-- Value of a parameter. -/
inductive Val
  | unset
  | int (n : Int)
  | real (x : ℚ)
  | text (s : String)
  | word (k : Kw)
  | ints (l : List Int)
  | reals (l : List ℚ)
  | pairs (l : List (Int × Int))
deriving DecidableEq, Repr

/-- Tokens. -/
inductive Tok
  | kw (k : Kw)
  | eq
  | val (v : Val)
  | texts (l : List String)
deriving DecidableEq, Repr

/-- Six significant digits: what `os<<x` writes (default precision of `std::ostringstream`), read
back.  Simplified: a tie is rounded up. -/
def six (x : ℚ) : ℚ :=
  if x = 0 then 0 else
    (round (x / (10 : ℚ) ^ (Int.log 10 |x| - 5)) : ℤ) * (10 : ℚ) ^ (Int.log 10 |x| - 5)

/-- Token printed for a value: a word is a keyword, a real number loses its digits after the sixth. -/
def tokOf : Val → Tok
  | .real x => .val (.real (six x))
  | .reals l => .val (.reals (l.map six))
  | .word k => .kw k
  | v => .val v

/-- What the parser asks to its environment: `glob` (parser.ypp lines 845-860) and the check of the
template of the stored configurations (lines 775-784). -/
structure Env where
  glob : String → Option (List String)
  template : String → Bool

/-- Text that the tokenizer can return: no quote inside (tokenizer.lpp line 95). -/
def noQuote (s : String) : Bool := s.toList.all fun c => c != '"' && c != '\''

/-- Kind of value that a setting wants. -/
inductive Ty
  | int | real | trunc | flag | hmc | text | template | ints | reals3 | ops
  | word (l : List Kw)
deriving DecidableEq

/-- Reading of a value, parser.ypp: `int_numb`, `double_numb` (lines 963-986), `text` (957-960),
`int_list` and the other lists, never empty (lines 913-954); `MeasEachNSmooth`, read as a real and
stored as an integer (425); `TimeMomRep` and `ForceUnquenched`, stored as a bool; `UseHMC`, which
crashes if not zero (755); `StorePath` (775-784); `Alphas`, three of them (553-560); `Operators`,
in range and with first entry 15,15 (598-634). -/
def accept (e : Env) : Ty → Tok → Option Val
  | .int, .val (.int n) => some (.int n)
  | .real, .val (.int n) => some (.real n)
  | .real, .val (.real x) => some (.real x)
  | .trunc, .val (.int n) => some (.int n)
  | .trunc, .val (.real x) => some (.int (if 0 ≤ x then ⌊x⌋ else ⌈x⌉))
  | .flag, .val (.int n) => some (.int (if n = 0 then 0 else 1))
  | .hmc, .val (.int n) => if n = 0 then some (.int 0) else none
  | .text, .val (.text s) => if noQuote s then some (.text s) else none
  | .template, .val (.text s) => if noQuote s && e.template s then some (.text s) else none
  | .ints, .val (.ints l) => if l = [] then none else some (.ints l)
  | .reals3, .val (.reals l) => if l.length = 3 then some (.reals l) else none
  | .ops, .val (.pairs l) =>
      if l.head? = some (15, 15) ∧ ∀ p ∈ l, (0 ≤ p.1 ∧ p.1 ≤ 15) ∧ 0 ≤ p.2 ∧ p.2 ≤ 15
      then some (.pairs l) else none
  | .word l, .kw k => if k ∈ l then some (.word k) else none
  | _, _ => none

/-- Parameter blocks. -/
inductive Blk
  | geo | run | theory | topo | quark | em | stout | cool | wflow | ape | hyp | smooth
  | meson | zumba | elle | plaq | top | luppoli | evol | quen | conf
deriving DecidableEq

/-- Settings common to the fermionic measurements with their default, fermionic_meas.hpp lines 24-55;
grammar as in parser.ypp lines 588-596. -/
def baseMeas (p : String) : List (Kw × Ty × Val) :=
  [(.each, .int, .int 1), (.after, .int, .int 0), (.path, .text, .text p),
   (.residue, .real, .real (1 / 10 ^ 12)), (.iTheory, .int, .int 0), (.nCopies, .int, .int 1),
   (.noiseType, .word [.allPlusOne, .allMinusOne, .unif, .z2, .z3, .z4, .gauss], .word .z2),
   (.nHits, .int, .int 1)]

/-- Settings that each block of the grammar accepts, with the default given by the constructor of the
block.  geo: parser.ypp 449-455, driver.hpp 28-29.  run: 483-486, driver.hpp 34-35.  theory: 467-473,
theory_pars.hpp 20-28.  topo: 493-502, metadynamics.hpp, topological_action.hpp 27-30.  quark:
574-584, quark_pars.hpp 142-191.  em: 476-479, backfield.hpp 53-58.  stout: 521-524, stout.hpp 33-43.
cool: 531-534, cooling.hpp 22-40.  ape: 541-544, APE.hpp 21-29.  hyp: 549-560, HYP.hpp 24-42.  wflow:
564-568, Wflow.hpp 126-139.  smooth: 507-517, smooth.hpp 22-43.  meson: 588-604, mesons.hpp 23-45.
zumba: 651-661 (`max_order` has no default, zumba.hpp 44-48).  elle: 824-837, ellesettete.hpp 17-41.
plaq: 866-875, gaugeconf.hpp 55-88.  top: 879-887, topological_charge.hpp 26-54.  luppoli: 891-895.
evol: 741-751, multipseudo_rhmc_step.hpp 24-31.  quen: 753-763, pure_gauge_Omelyan_integrator.hpp
28-40.  conf: 767-789, multipseudo_rhmc_step.hpp 97-120.  The settings of `geo` also contain `L`, which
is no parameter. -/
def table : Blk → List (Kw × Ty × Val)
  | .geo => [(.T, .int, .int 4), (.LX, .int, .int 4), (.LY, .int, .int 4), (.LZ, .int, .int 4),
      (.L, .int, .unset)]
  | .run => [(.walltime, .int, .int 3500), (.seed, .int, .int 23526211)]
  | .theory => [(.gaugeAction, .word [.wilson, .tlSym, .iwasaki], .word .wilson),
      (.beta, .real, .real 6)]
  | .topo => [(.theta, .real, .real 0), (.after, .int, .int 30), (.each, .int, .int 1),
      (.coeff, .real, .real 1), (.width, .real, .real 1), (.barr, .real, .real 10),
      (.forceOut, .real, .real 100), (.wellTempering, .real, .real 0), (.bend, .real, .real 0)]
  | .quark => [(.degeneracy, .int, .int 1),
      (.discretiz, .word [.rootStag, .rootTMClov, .overlap], .word .rootStag),
      (.mass, .real, .real (1 / 10)), (.massOverlap, .real, .real 1), (.kappa, .real, .real (1 / 8)),
      (.cSW, .real, .real 0), (.rePotCh, .real, .real 0), (.imPotCh, .real, .real 0),
      (.elecCharge, .real, .real 0)]
  | .em => [(.Ex, .real, .real 0), (.Ey, .real, .real 0), (.Ez, .real, .real 0),
      (.Bx, .real, .real 0), (.By, .real, .real 0), (.Bz, .real, .real 0)]
  | .stout => [(.nLevels, .int, .int 0), (.rho, .real, .real 0)]
  | .cool => [(.gaugeAction, .word [.wilson, .tlSym, .iwasaki], .word .wilson),
      (.nSteps, .int, .int 120)]
  | .wflow => [(.nFlows, .int, .int 50), (.flowStep, .real, .real (1 / 5)), (.nRecu, .int, .int 5)]
  | .ape => [(.alpha, .real, .real (1 / 2)), (.nLevels, .int, .int 20)]
  | .hyp => [(.alphas, .reals3, .reals [1, 1, 1 / 2]), (.nLevels, .int, .int 1)]
  | .smooth => [(.spaceOrTime, .word [.space, .time, .spaceTime], .word .spaceTime),
      (.measEachNSmooth, .trunc, .int 1)]
  | .meson => baseMeas "meson_corrs" ++ [(.operators, .ops, .pairs []), (.dir, .int, .int 0),
      (.gaussKappa, .real, .real 0), (.gaussNiterSrc, .int, .int 0), (.gaussNiterSnk, .int, .int 0)]
  | .zumba => baseMeas "zambia" ++ [(.maxOrder, .int, .unset)]
  | .elle => baseMeas "ellesettete" ++ [(.method, .word [.analytical, .numerical], .word .analytical),
      (.epsilon, .real, .real (1 / 10 ^ 6)),
      (.tasteChannel, .word [.gammaID, .gamma5, .gamma1, .gamma2, .gamma3, .ax1, .ax2, .ax3, .sigma01,
        .sigma02, .sigma12, .sigma03, .sigma13, .sigma23], .word .gamma1)]
  | .plaq => [(.each, .int, .int 1), (.after, .int, .int 0), (.path, .text, .text "gauge_obs"),
      (.measPlaq, .int, .int 1), (.measEnergy, .int, .int 0), (.measPoly, .int, .int 1),
      (.useSmooth, .int, .int 0)]
  | .top => [(.each, .int, .int 1), (.after, .int, .int 0), (.path, .text, .text "Topo"),
      (.measCorr, .int, .int 0), (.corrPath, .text, .text "TopoCorr"), (.timeMomRep, .flag, .int 0)]
  | .luppoli => [(.each, .int, .int 1), (.after, .int, .int 0), (.path, .text, .text "luppoli")]
  | .evol => [(.idSeaTheory, .int, .int 0), (.nTrajTot, .int, .int 100), (.skipMetro, .int, .int 30),
      (.trajLength, .real, .real 1), (.actResidue, .real, .real (1 / 10 ^ 16)),
      (.mdResidue, .real, .real (1 / 10 ^ 8)), (.nSteps, .int, .int 11), (.nSubSteps, .int, .int 5),
      (.nPseudoFerms, .ints, .ints [])]
  | .quen => [(.useHMC, .hmc, .int 0), (.trajLength, .real, .real 1), (.skipMetro, .int, .int 30),
      (.nSteps, .int, .int 11), (.nHBSweeps, .int, .int 1), (.nHBHits, .int, .int 1),
      (.nOVSweeps, .int, .int 3), (.nOVHits, .int, .int 3)]
  | .conf => [(.path, .text, .text "conf"), (.storePath, .template, .text "stored_conf.%08d"),
      (.storeEach, .int, .int 10), (.storeRunning, .int, .int 1),
      (.startCond, .word [.hot, .cold], .word .cold)]

/-- Kind of value of a setting of a block, if the block has it. -/
def tyOf (b : Blk) (k : Kw) : Option Ty := ((table b).lookup k).map Prod.fst

/-- A block of parameters: a value per keyword, `unset` on the keywords that the block does not
have. -/
abbrev Asg := Kw → Val

/-- Parameters set by the constructor of a block. -/
def dflt (b : Blk) : Asg := fun k => (((table b).lookup k).map Prod.snd).getD .unset

/-- Effect of a setting: `L` sets the three of them (parser.ypp line 451), any other keyword its
parameter. -/
def assign (k : Kw) (v : Val) (a : Asg) : Asg :=
  if k = .L then fun j => if j = .LX ∨ j = .LY ∨ j = .LZ then v else a j
  else fun j => if j = k then v else a j

/-- Theory, theory_pars.hpp lines 13-44; the kind of topological potential is kept apart from its
parameters. -/
structure Theory where
  own : Asg
  topoKind : Kw
  topo : Asg
  topoStout : Asg
  quarks : List (String × Asg)
  stout : Asg
  emFlag : Bool
  em : Asg

/-- Smoothing, smooth.hpp lines 14-118; `sub` holds the parameters of each method. -/
structure Smooth where
  kind : Kw
  own : Asg
  cool : Asg
  stout : Asg
  wflow : Asg
  ape : Asg
  hyp : Asg

/-- Gauge measurement: its settings and its smoothing. -/
structure GMeas where
  own : Asg
  smooth : Smooth

/-- All the parameters, driver.hpp lines 22-128. -/
structure Driver where
  tag : String
  geo : Asg
  theories : List Theory
  mesons : List Asg
  zumbas : List Asg
  elles : List Asg
  plaqs : List GMeas
  tops : List GMeas
  luppolis : List Asg
  run : Asg
  analysis : Bool
  force : Bool
  evol : Asg
  quen : Asg
  conf : Asg
  confList : List String

/-- New theory, theory_pars.hpp lines 87-90. -/
def newTheory : Theory :=
  ⟨dflt .theory, .none_, dflt .topo, dflt .stout, [], dflt .stout, false, dflt .em⟩

/-- New smoothing, smooth.hpp lines 226-231. -/
def newSmooth : Smooth :=
  ⟨.cooling, dflt .smooth, dflt .cool, dflt .stout, dflt .wflow, dflt .ape, dflt .hyp⟩

/-- Parameters before the scan, tokenizer.lpp lines 356-369. -/
def newDriver : Driver :=
  ⟨"", dflt .geo, [], [], [], [], [], [], [], dflt .run, false, false, dflt .evol, dflt .quen,
    dflt .conf, []⟩

/-- Change of the last element: the block being read is the last one of its list. -/
def modLast {α : Type} (f : α → α) : List α → List α
  | [] => []
  | [x] => [f x]
  | x :: y :: l => x :: modLast f (y :: l)

/-- Which of the two measurements with smoothing. -/
inductive GM
  | plaq | top
deriving DecidableEq

/-- Innermost open block. -/
inductive Ctx
  | global | geo | run | theory | topo | topoStout | quark | em | stout
  | meson | zumba | elle | gm (g : GM) | luppoli | smooth (g : GM) | sub (g : GM) (k : Kw)
  | evol | quen | conf
deriving DecidableEq

/-- Block whose settings a smoothing method has. -/
def subBlk : Kw → Blk
  | .stout => .stout
  | .wFlow => .wflow
  | .ape => .ape
  | .hyp => .hyp
  | _ => .cool

/-- Block of parameters of an open block. -/
def blk : Ctx → Option Blk
  | .global => none
  | .geo => some .geo
  | .run => some .run
  | .theory => some .theory
  | .topo => some .topo
  | .topoStout => some .stout
  | .quark => some .quark
  | .em => some .em
  | .stout => some .stout
  | .meson => some .meson
  | .zumba => some .zumba
  | .elle => some .elle
  | .gm .plaq => some .plaq
  | .gm .top => some .top
  | .luppoli => some .luppoli
  | .smooth _ => some .smooth
  | .sub _ k => some (subBlk k)
  | .evol => some .evol
  | .quen => some .quen
  | .conf => some .conf

/-- Blocks open together, innermost first. -/
def chain : Ctx → List Ctx
  | .topo => [.topo, .theory, .global]
  | .topoStout => [.topoStout, .topo, .theory, .global]
  | .quark => [.quark, .theory, .global]
  | .em => [.em, .theory, .global]
  | .stout => [.stout, .theory, .global]
  | .smooth g => [.smooth g, .gm g, .global]
  | .sub g k => [.sub g k, .smooth g, .gm g, .global]
  | .global => [.global]
  | c => [c, .global]

/-- Keywords that start something at the outermost level, parser.ypp lines 381-417. -/
def globals : List Kw :=
  [.tag, .geometry, .run, .theory, .measMesonCorrs, .measZumba, .measElleSettete, .measPlaqPol,
   .measTop, .measLuppoli, .forceUnquenched, .evolution, .quenchedEvolution, .gaugeConf, .analysis]

/-- Keywords that open a block inside another one: theory (parser.ypp 467-471), topo (496), gauge
measurements (875, 883). -/
def inner : Ctx → List Kw
  | .global => globals
  | .theory => [.stout, .topoPotential, .quark, .bkgrdEMField]
  | .topo => [.stout]
  | .gm _ => [.smoothMethod]
  | _ => []

/-- Does the block take the keyword? -/
def takes (c : Ctx) (k : Kw) : Bool :=
  k ∈ inner c || (match blk c with | none => false | some b => (tyOf b k).isSome)

/-- Open block a keyword goes to. -/
def resolve (c : Ctx) (k : Kw) : Option Ctx := (chain c).find? fun c' => takes c' k

/-- What is expected after a keyword: its value, or the list of configurations after `Analysis`. -/
inductive Pend
  | idle
  | key (c : Ctx) (k : Kw)
  | val (c : Ctx) (k : Kw)
  | conf
deriving DecidableEq

/-- State of the scan. -/
structure St where
  drv : Driver
  ctx : Ctx
  pend : Pend

/-- Change of the theory being read. -/
def modTh (f : Theory → Theory) (d : Driver) : Driver := { d with theories := modLast f d.theories }

/-- Change of the gauge measurement being read. -/
def modGm (g : GM) (f : GMeas → GMeas) (d : Driver) : Driver :=
  match g with
  | .plaq => { d with plaqs := modLast f d.plaqs }
  | .top => { d with tops := modLast f d.tops }

/-- Change of the parameters of the method of a smoothing. -/
def modSub (k : Kw) (f : Asg → Asg) (s : Smooth) : Smooth :=
  match subBlk k with
  | .stout => { s with stout := f s.stout }
  | .wflow => { s with wflow := f s.wflow }
  | .ape => { s with ape := f s.ape }
  | .hyp => { s with hyp := f s.hyp }
  | _ => { s with cool := f s.cool }

/-- Change of the parameters of the open block `c`. -/
def write (c : Ctx) (f : Asg → Asg) (d : Driver) : Driver :=
  match c with
  | .global => d
  | .geo => { d with geo := f d.geo }
  | .run => { d with run := f d.run }
  | .theory => modTh (fun t => { t with own := f t.own }) d
  | .topo => modTh (fun t => { t with topo := f t.topo }) d
  | .topoStout => modTh (fun t => { t with topoStout := f t.topoStout }) d
  | .quark => modTh (fun t => { t with quarks := modLast (fun q => (q.1, f q.2)) t.quarks }) d
  | .em => modTh (fun t => { t with em := f t.em }) d
  | .stout => modTh (fun t => { t with stout := f t.stout }) d
  | .meson => { d with mesons := modLast f d.mesons }
  | .zumba => { d with zumbas := modLast f d.zumbas }
  | .elle => { d with elles := modLast f d.elles }
  | .gm g => modGm g (fun m => { m with own := f m.own }) d
  | .luppoli => { d with luppolis := modLast f d.luppolis }
  | .smooth g => modGm g (fun m => { m with smooth := { m.smooth with own := f m.smooth.own } }) d
  | .sub g k => modGm g (fun m => { m with smooth := modSub k f m.smooth }) d
  | .evol => { d with evol := f d.evol }
  | .quen => { d with quen := f d.quen }
  | .conf => { d with conf := f d.conf }

/-- Keyword alone that opens a block, parser.ypp: first alternative of each block. -/
def header (c : Ctx) (k : Kw) (d : Driver) : Option (Driver × Ctx) :=
  match c, k with
  | .global, .geometry => some (d, .geo)
  | .global, .run => some (d, .run)
  | .global, .theory => some ({ d with theories := d.theories ++ [newTheory] }, .theory)
  | .global, .measMesonCorrs => some ({ d with mesons := d.mesons ++ [dflt .meson] }, .meson)
  | .global, .measZumba => some ({ d with zumbas := d.zumbas ++ [dflt .zumba] }, .zumba)
  | .global, .measElleSettete => some ({ d with elles := d.elles ++ [dflt .elle] }, .elle)
  | .global, .measPlaqPol =>
      some ({ d with plaqs := d.plaqs ++ [⟨dflt .plaq, newSmooth⟩] }, .gm .plaq)
  | .global, .measTop => some ({ d with tops := d.tops ++ [⟨dflt .top, newSmooth⟩] }, .gm .top)
  | .global, .measLuppoli => some ({ d with luppolis := d.luppolis ++ [dflt .luppoli] }, .luppoli)
  | .global, .evolution => some ({ d with analysis := false }, .evol)
  | .global, .quenchedEvolution => some ({ d with analysis := false }, .quen)
  | .global, .gaugeConf => some ({ d with analysis := false }, .conf)
  | .theory, .stout => some (modTh (fun t => { t with stout := dflt .stout }) d, .stout)
  | .theory, .bkgrdEMField =>
      some (modTh (fun t => { t with emFlag := true, em := dflt .em }) d, .em)
  | .topo, .stout => some (modTh (fun t => { t with topoStout := dflt .stout }) d, .topoStout)
  | _, _ => none

/-- Keyword followed by `=` and a value that is no setting of a block: tag, `ForceUnquenched`
(parser.ypp 383, 409), topological potential (490-492), quark (570-575), smoothing (507-511). -/
def special (e : Env) (c : Ctx) (k : Kw) (t : Tok) (d : Driver) : Option (Driver × Ctx) :=
  match c, k, t with
  | .global, .tag, .val (.text s) =>
      if noQuote s then some ({ d with tag := s }, .global) else none
  | .global, .forceUnquenched, .val (.int n) => some ({ d with force := decide (n ≠ 0) }, .global)
  | .theory, .topoPotential, .kw w =>
      if w ∈ [.none_, .ordinary, .meta_] then
        some (modTh (fun t => { t with topoKind := w, topo := dflt .topo, topoStout := dflt .stout }) d,
          .topo)
      else none
  | .theory, .quark, .val (.text s) =>
      if noQuote s then
        some (modTh (fun t => { t with quarks := t.quarks ++ [(s, dflt .quark)] }) d, .quark)
      else none
  | .gm g, .smoothMethod, .kw w =>
      if w ∈ [.cooling, .stout, .wFlow, .ape, .hyp] then
        some (modGm g (fun m => { m with smooth := { newSmooth with kind := w } }) d, .sub g w)
      else none
  | _, _, _ => none

/-- One keyword when nothing is pending. -/
def stepKw (s : St) (k : Kw) : Option St :=
  match resolve s.ctx k with
  | none => none
  | some c =>
    if c = .global ∧ k = .analysis then some ⟨s.drv, .global, .conf⟩
    else match header c k s.drv with
      | some (d, c') => some ⟨d, c', .idle⟩
      | none => some ⟨s.drv, s.ctx, .key c k⟩

/-- Value of the keyword `k` of the open block `c`. -/
def stepVal (e : Env) (s : St) (c : Ctx) (k : Kw) (t : Tok) : Option St :=
  if k ∈ inner c then
    match special e c k t s.drv with
    | some (d, c') => some ⟨d, c', .idle⟩
    | none => none
  else
    match blk c with
    | none => none
    | some b =>
      match tyOf b k with
      | none => none
      | some ty =>
        match accept e ty t with
        | none => none
        | some v => some ⟨write c (assign k v) s.drv, c, .idle⟩

/-- Configurations of an analysis: the patterns are expanded, parser.ypp lines 841-861. -/
def expand (e : Env) : List String → Option (List String)
  | [] => some []
  | p :: l =>
    match e.glob p, expand e l with
    | some a, some b => some (a ++ b)
    | _, _ => none

/-- One token.  `Method` of ellesettete has no `=` (parser.ypp lines 833-834). -/
def step (e : Env) (s : St) (t : Tok) : Option St :=
  match s.pend, t with
  | .idle, .kw k => stepKw s k
  | .key c k, t =>
      if k = .method then stepVal e s c k t
      else if t = .eq then some { s with pend := .val c k }
      else none
  | .val c k, t => stepVal e s c k t
  | .conf, .kw .confList => some { s with pend := .key .global .confList }
  | _, _ => none

/-- One token, with the list of the configurations. -/
def stepAll (e : Env) (s : St) (t : Tok) : Option St :=
  match s.pend, t with
  | .val .global .confList, .texts l =>
      if l = [] ∨ ¬ l.all noQuote then none else
      match expand e l with
      | none => none
      | some r =>
          some ⟨{ s.drv with analysis := true, confList := s.drv.confList ++ r }, .global, .idle⟩
  | _, _ => step e s t

/-- Scan of a list of tokens from a state. -/
def scanFrom (e : Env) : St → List Tok → Option St
  | s, [] => some s
  | s, t :: l =>
    match stepAll e s t with
    | none => none
    | some s' => scanFrom e s' l

/-- Scan of a whole input; `none` is a syntax error or a crash. -/
def scan (e : Env) (l : List Tok) : Option Driver :=
  match scanFrom e ⟨newDriver, .global, .idle⟩ l with
  | some s => if s.pend = .idle then some s.drv else none
  | none => none

/-! Printing. -/

/-- Comparison with the default: a component of the e.m. field is compared with zero up to 1e-14
(backfield.hpp lines 35-40), any other parameter exactly. -/
def differs (b : Blk) (k : Kw) (v : Val) : Bool :=
  match b, v with
  | .em, .real x => decide ((1 : ℚ) / 10 ^ 14 < |x|)
  | _, _ => decide (v ≠ dflt b k)

/-- Name printed for a parameter: its keyword, apart from "Taste channel" (ellesettete.cpp line
226), which are two invalid strings. -/
def label (b : Blk) (k : Kw) : List Tok :=
  if b = .elle ∧ k = .tasteChannel then [.kw .bad, .kw .bad] else [.kw k]

/-- One line: printed if all is asked or if the value is not the default. -/
def row (full : Bool) (b : Blk) (x : Asg) (k : Kw) : List Tok :=
  if full || differs b k (x k) then label b k ++ [.eq, tokOf (x k)] else []

/-- Lines of the `get_str` of each block, in order.  theory: theory_pars.cpp 17-20.  quark:
quark_pars.hpp 207-215.  em: backfield.hpp 35-40.  stout: stout.hpp 59-60.  cool: cooling.hpp 56-57.
wflow: Wflow.hpp 154-156.  ape: APE.hpp 44-45.  hyp: HYP.hpp 57-58.  smooth: smooth.hpp 213-214.
meson: fermionic_meas.hpp 77-84, mesons.hpp 60-84.  zumba: the common ones only (zumba.hpp 26-34).
elle: ellesettete.cpp 221-226.  plaq: gaugeconf.hpp 101-107.  top: topological_charge.hpp 78-83.
run: driver.hpp 147-148.  evol: multipseudo_rhmc_step.hpp 43-57.  quen:
pure_gauge_Omelyan_integrator.hpp 51-58.  conf: multipseudo_rhmc_step.hpp 133-145. -/
def printed : Blk → List Kw
  | .theory => [.gaugeAction, .beta]
  | .quark => [.degeneracy, .discretiz, .mass, .massOverlap, .kappa, .cSW, .rePotCh, .imPotCh,
      .elecCharge]
  | .em => [.Ex, .Ey, .Ez, .Bx, .By, .Bz]
  | .stout => [.nLevels, .rho]
  | .cool => [.gaugeAction, .nSteps]
  | .wflow => [.nFlows, .flowStep, .nRecu]
  | .ape => [.alpha, .nLevels]
  | .hyp => [.alphas, .nLevels]
  | .smooth => [.spaceOrTime, .measEachNSmooth]
  | .meson => [.each, .after, .path, .residue, .nCopies, .iTheory, .noiseType, .nHits, .dir,
      .operators, .gaussKappa, .gaussNiterSrc, .gaussNiterSnk]
  | .zumba => [.each, .after, .path, .residue, .nCopies, .iTheory, .noiseType, .nHits]
  | .elle => [.each, .after, .path, .residue, .nCopies, .iTheory, .noiseType, .nHits, .method,
      .epsilon, .tasteChannel]
  | .plaq => [.each, .after, .path, .measPlaq, .measEnergy, .measPoly, .useSmooth]
  | .top => [.each, .after, .path, .measCorr, .corrPath, .timeMomRep]
  | .run => [.walltime, .seed]
  | .evol => [.idSeaTheory, .nTrajTot, .skipMetro, .trajLength, .actResidue, .mdResidue, .nSteps,
      .nSubSteps, .nPseudoFerms]
  | .quen => [.useHMC, .trajLength, .skipMetro, .nSteps, .nHBSweeps, .nHBHits, .nOVSweeps, .nOVHits]
  | .conf => [.path, .storePath, .storeEach, .storeRunning, .startCond]
  | .geo | .topo | .luppoli => []

/-- Lines of a block. -/
def rows (full : Bool) (b : Blk) (x : Asg) : List Tok := (printed b).flatMap (row full b x)

/-- Parameters compared by the `is_nonstandard` of a block.  evol: multipseudo_rhmc_step.hpp 66-73,
without the numbers of pseudofermions.  topo: metadynamics.hpp 113-123, topological_action.hpp
105-108.  smooth: smooth.hpp 218-223. -/
def checked : Blk → List Kw
  | .evol => [.idSeaTheory, .nTrajTot, .skipMetro, .trajLength, .actResidue, .mdResidue, .nSteps,
      .nSubSteps]
  | .topo => [.after, .each, .coeff, .width, .barr, .forceOut, .wellTempering, .bend, .theta]
  | b => printed b

/-- `is_nonstandard` of a block. -/
def nonstd (b : Blk) (x : Asg) : Bool := (checked b).any fun k => differs b k (x k)

/-- Stout parameters, stout.hpp lines 52-64. -/
def stoutStr (full : Bool) (x : Asg) : List Tok :=
  if full || nonstd .stout x then .kw .stout :: rows full .stout x else []

/-- Blocks printed with their name if not standard: hmc_evol_pars_t, pure_gauge_evol_pars_t,
conf_pars_t (multipseudo_rhmc_step.hpp 36-60, 128-150, pure_gauge_Omelyan_integrator.hpp 44-62). -/
def blkStr (full : Bool) (h : Kw) (b : Blk) (x : Asg) : List Tok :=
  if full || nonstd b x then .kw h :: rows full b x else []

/-- Parameters of the metadynamics, always printed: metadynamics.cpp lines 15-28. -/
def metaKeys : List Kw := [.after, .each, .coeff, .width, .barr, .forceOut, .wellTempering, .bend]

/-- Topological potential, topological_action.hpp lines 76-101. -/
def topoStr (full : Bool) (t : Theory) : List Tok :=
  (if full || decide (t.topoKind ≠ .none_) then [.kw .topoPotential, .eq, .kw t.topoKind] else []) ++
  (match t.topoKind with
    | .ordinary => row true .topo t.topo .theta
    | .meta_ => metaKeys.flatMap (row true .topo t.topo) ++ stoutStr full t.topoStout
    | _ => [])

/-- Quark, quark_pars.hpp lines 202-219. -/
def quarkStr (full : Bool) (q : String × Asg) : List Tok :=
  [.kw .quark, .eq, .val (.text q.1)] ++ rows full .quark q.2

/-- E.m. field, backfield.hpp lines 28-52. -/
def emStr (full : Bool) (t : Theory) : List Tok :=
  if full || t.emFlag || nonstd .em t.em then .kw .bkgrdEMField :: rows full .em t.em else []

/-- `is_nonstandard` of a theory, theory_pars.hpp lines 64-73, topological_action.hpp lines 103-110,
backfield.hpp lines 46-51. -/
def theoryNonstd (t : Theory) : Bool :=
  nonstd .theory t.own || decide (t.quarks ≠ []) ||
  (nonstd .topo t.topo || decide (t.topoKind ≠ .none_) || nonstd .stout t.topoStout) ||
  nonstd .stout t.stout || (t.emFlag || nonstd .em t.em)

/-- Theory, theory_pars.cpp lines 9-29. -/
def theoryStr (full : Bool) (t : Theory) : List Tok :=
  (if full || theoryNonstd t then [.kw .theory] else []) ++ rows full .theory t.own ++
  topoStr full t ++ t.quarks.flatMap (quarkStr full) ++ stoutStr full t.stout ++ emStr full t

/-- Parameters of the method of a smoothing. -/
def subOf (s : Smooth) : Asg :=
  match s.kind with
  | .stout => s.stout
  | .wFlow => s.wflow
  | .ape => s.ape
  | .hyp => s.hyp
  | _ => s.cool

/-- Parameters of a method after its name: cooling.hpp 50-61, Wflow.hpp 147-160, APE.hpp 37-49,
HYP.hpp 51-62; stout prints nothing, not even its name, if standard. -/
def subStr (full : Bool) (s : Smooth) : List Tok :=
  match s.kind with
  | .stout => stoutStr full s.stout
  | k => .kw k :: (if full || nonstd (subBlk k) (subOf s) then rows full (subBlk k) (subOf s) else [])

/-- `is_nonstandard` of a smoothing, smooth.hpp lines 218-223: the parameters of the method are not
looked at. -/
def smoothNonstd (s : Smooth) : Bool := decide (s.kind ≠ .cooling) || nonstd .smooth s.own

/-- Smoothing, smooth.hpp lines 189-216. -/
def smoothStr (full : Bool) (s : Smooth) : List Tok :=
  if full || smoothNonstd s then
    (if full || decide (s.kind ≠ .cooling) || nonstd (subBlk s.kind) (subOf s)
      then [.kw .smoothMethod, .eq] ++ subStr full s else []) ++ rows full .smooth s.own
  else []

/-- Gauge measurement, gaugeconf.hpp 96-111, topological_charge.hpp 73-87. -/
def gmeasStr (full : Bool) (h : Kw) (b : Blk) (m : GMeas) : List Tok :=
  .kw h :: rows full b m.own ++ smoothStr full m.smooth

/-- Fermionic measurement: name and lines (mesons.hpp 54-84, zumba.hpp 26-34, ellesettete.cpp
217-229). -/
def measStr (full : Bool) (h : Kw) (b : Blk) (x : Asg) : List Tok := .kw h :: rows full b x

/-- Line of the geometry. -/
def geoRow (on : Bool) (k : Kw) (v : Val) : List Tok := if on then [.kw k, .eq, tokOf v] else []

/-- Geometry, driver.hpp lines 124-141. -/
def geoStr (full : Bool) (x : Asg) : List Tok :=
  let f := fun k : Kw => decide (x k ≠ .int 4)
  let fL := decide (x .LX = x .LY) && decide (x .LX = x .LZ)
  (if full || f .LX || f .LY || f .LZ || f .T then [.kw .geometry] else []) ++
  geoRow (full || f .T) .T (x .T) ++
  (if fL then geoRow (full || (f .LX || f .LY || f .LZ)) .L (x .LX)
   else geoRow (full || f .LX) .LX (x .LX) ++ geoRow (full || f .LY) .LY (x .LY) ++
     geoRow (full || f .LZ) .LZ (x .LZ))

/-- Walltime and seed, driver.hpp lines 144-151. -/
def runStr (full : Bool) (x : Asg) : List Tok := blkStr full .run .run x

/-- All the input, driver.hpp lines 168-219 (the correlators of Polyakov loops are not printed). -/
def print (full : Bool) (d : Driver) : List Tok :=
  (if full || decide (d.tag ≠ "") then [.kw .tag, .eq, .val (.text d.tag)] else []) ++
  geoStr full d.geo ++
  d.theories.flatMap (theoryStr full) ++
  d.mesons.flatMap (measStr full .measMesonCorrs .meson) ++
  d.zumbas.flatMap (measStr full .measZumba .zumba) ++
  d.elles.flatMap (measStr full .measElleSettete .elle) ++
  d.plaqs.flatMap (gmeasStr full .measPlaqPol .plaq) ++
  d.tops.flatMap (gmeasStr full .measTop .top) ++
  runStr full d.run ++
  (if d.analysis then
    .kw .analysis :: (if d.confList ≠ [] then [.kw .confList, .eq, .texts d.confList] else [])
   else
    (if full || d.force then
      [.kw .forceUnquenched, .eq, .val (.int (if d.force then 1 else 0))] else []) ++
    blkStr full .evolution .evol d.evol ++
    blkStr full .quenchedEvolution .quen d.quen ++
    blkStr full .gaugeConf .conf d.conf)

end Nissa.Scan
