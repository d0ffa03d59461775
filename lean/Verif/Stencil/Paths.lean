import Verif.Stencil.Plaquette

/-! # Products of links along arbitrary paths

Models `paths_calculation_structure` of `/repo/src/operations/su3_paths/arbitrary.hpp` and `arbitrary.cpp`, on every rank.

Simplifications: `int` is unbounded (the codes `(lx*4+mu)<<4`, `gx*4+mu`, `ord` overflow beyond 2^27 local or 2^29 global sites);
the current global site is represented by its coordinates (`glblxNeighup`, `glblxNeighdw` go through them); `qsort` is any
reordering sorted by `ord`. -/

set_option linter.all false

namespace Nissa.Paths
open Nissa.Lx Nissa.Sten Nissa.Gauge Nissa.Su3f Matrix

/-- `movement_link_id`; `linkId=gx*4+mu`, `ord=((rank+nranks-rx)%nranks*locVol+lx)*4+mu`.
`/repo/src/operations/su3_paths/arbitrary.hpp:20-34` -/
structure NL where
  mov : Nat
  linkId : Nat
  ord : Nat

/-- `movement_link_id::set`.  `/repo/src/operations/su3_paths/arbitrary.hpp:26-33` -/
def NL.set (g : Geo) (rank : Nat) (mov : Nat) (gx : Coords) (mu : Dir) : NL where
  mov := mov
  linkId := lxOfCoord gx g.L * 4 + mu
  ord := ((rank + g.nranks - (getLoclxAndRankOfCoords g gx).1) % g.nranks * g.locVol + (getLoclxAndRankOfCoords g gx).2) * 4 + mu

/-- the fields of `paths_calculation_structure` used while the paths are described.
`/repo/src/operations/su3_paths/arbitrary.hpp:80-97` -/
structure St where
  curPath : Nat
  curMov : Nat
  pos : Coords
  lfm : Nat → Nat
  nonloc : List NL

/-- `start_new_path_from_loclx`.  `/repo/src/operations/su3_paths/arbitrary.hpp:100-102` -/
def start (g : Geo) (rank : Nat) (lx : Nat) (s : St) : Option St :=
  (glbCoordOfLoclx g (coordOfLx rank g.R) lx).map fun c =>
    { s with pos := c, lfm := Function.update s.lfm s.curMov 1 }

/-- `summ_to_previous_path`.  `/repo/src/operations/su3_paths/arbitrary.hpp:103-108` -/
def summToPrevious (s : St) : Option St :=
  if s.curPath = 0 then none
  else some { s with
    curPath := if s.lfm s.curMov / 8 % 2 = 0 then s.curPath - 1 else s.curPath
    lfm := Function.update s.lfm s.curMov (s.lfm s.curMov + 8) }

/-- `switch_to_next_step`.  `/repo/src/operations/su3_paths/arbitrary.hpp:109-112` -/
def switchToNextStep (ntot : Nat) (s : St) : Option St :=
  if s.curMov + 1 > ntot then none
  else some { s with curMov := s.curMov + 1, lfm := Function.update s.lfm (s.curMov + 1) 0 }

/-- mark the link `x,mu` for the current movement: in place if local, else append to the list.
`/repo/src/operations/su3_paths/arbitrary.cpp:38-47` and `64-73` -/
def markLink (g : Geo) (rank : Nat) (x : Coords) (mu : Dir) (s : St) : St :=
  let rl := getLoclxAndRankOfCoords g x
  if rl.1 = rank then { s with lfm := Function.update s.lfm s.curMov (s.lfm s.curMov + (rl.2 * 4 + mu) * 16) }
  else { s with nonloc := s.nonloc ++ [NL.set g rank s.curMov x mu] }

/-- `move_forward`.  `/repo/src/operations/su3_paths/arbitrary.cpp:30-52` -/
def moveForward (g : Geo) (rank ntot : Nat) (mu : Dir) (s : St) : Option St :=
  if s.curMov = ntot then none
  else switchToNextStep ntot { markLink g rank s.pos mu s with pos := tshift g s.pos mu 1 }

/-- `move_backward`.  `/repo/src/operations/su3_paths/arbitrary.cpp:55-78` -/
def moveBackward (g : Geo) (rank ntot : Nat) (mu : Dir) (s : St) : Option St :=
  let s := { s with lfm := Function.update s.lfm s.curMov (s.lfm s.curMov + 2) }
  if s.curMov = ntot then none
  else
    let nx := tshift g s.pos mu (-1)
    switchToNextStep ntot { markLink g rank nx mu s with pos := nx }

/-- `stop_current_path`.  `/repo/src/operations/su3_paths/arbitrary.hpp:115-118` -/
def stopCurrentPath (npaths : Nat) (s : St) : Option St :=
  if s.curPath + 1 > npaths then none else some { s with curPath := s.curPath + 1 }

/-- the loop of `finished_last_path` assigning the position in the buffer of the non local links to each movement.
`/repo/src/operations/su3_paths/arbitrary.cpp:89-95` -/
def assign : List NL → Nat → (Nat → Nat) → (Nat → Nat)
  | [], _, lfm => lfm
  | [a], n, lfm => Function.update lfm a.mov (lfm a.mov + (n * 16 + 4))
  | a :: b :: l, n, lfm =>
    assign (b :: l) (if a.linkId ≠ b.linkId then n + 1 else n) (Function.update lfm a.mov (lfm a.mov + (n * 16 + 4)))

/-- `ind_nonloc_links_list`, the independent non local links.  `/repo/src/operations/su3_paths/arbitrary.cpp:97-105` (an element
is written again with the same value while the link does not change) -/
def indList : List NL → List Nat
  | [] => []
  | [a] => [a.linkId]
  | a :: b :: l => if a.linkId ≠ b.linkId then a.linkId :: indList (b :: l) else indList (b :: l)

/-- `finished_last_path`: `sorted` is what `qsort` leaves.  `/repo/src/operations/su3_paths/arbitrary.cpp:81-113` -/
def finishedLastPath (npaths ntot : Nat) (sorted : List NL) (s : St) : Option ((Nat → Nat) × List Nat) :=
  if s.curPath ≠ npaths then none
  else if s.curMov ≠ ntot then none
  else some (assign sorted 0 s.lfm, indList sorted)

/-- the links which the rank `rank` asks to the rank `from_`: `links_to_ask`, received by `from_` as `links_to_send`.
`/repo/src/operations/su3_paths/arbitrary.cpp:142-169` -/
def linksToAsk (g : Geo) (ind : List Nat) (from_ : Nat) : List Nat :=
  (ind.filter (fun t => (getLoclxAndRankOfCoords g (coordOfLx (t / 4) g.L)).1 = from_)).map
    (fun t => (getLoclxAndRankOfCoords g (coordOfLx (t / 4) g.L)).2 * 4 + t % 4)

/-- the buffer of the non local links of the rank `rank` after `gather_nonloc_lx`: the blocks received from the ranks
`(rank+nranks-delta)%nranks` in order of `delta`, each holding the links of the sender listed in what it was asked.
`/repo/src/operations/su3_paths/arbitrary.cpp:116-257` -/
def gatherNonloc (g : Geo) (F : Nat → Nat → Quad) (rank : Nat) (ind : List Nat) : List M3 :=
  ((List.range g.nranks).tail).flatMap fun delta =>
    let rankToRecv := (rank + g.nranks - delta) % g.nranks
    (linksToAsk g ind rankToRecv).map fun t => F rankToRecv (t / 4) (Fin.ofNat 4 t)

/-- running variables of `compute_lx` -/
structure CSt where
  ipath : Nat
  cur : M3
  paths : Nat → M3

/-- one iteration of the loop of `compute_lx`; `link nonloc ilink` reads the buffer of non local links or the configuration.
`/repo/src/operations/su3_paths/arbitrary.cpp:299-340` -/
def computeStep (lfm : Nat → Nat) (link : Bool → Nat → M3) (s : CSt) (imov : Nat) : CSt :=
  let ilink := lfm imov / 16
  let tag := lfm imov % 16
  let startF := tag % 2 = 1
  let herm := tag / 2 % 2 = 1
  let nonloc := tag / 4 % 2 = 1
  let summ := tag / 8 % 2 = 1
  let s1 : CSt :=
    if startF then
      if imov ≠ 0 then
        let paths := Function.update s.paths s.ipath (s.paths s.ipath + s.cur)
        if ¬ summ then { ipath := s.ipath + 1, cur := 1, paths := Function.update paths (s.ipath + 1) 0 }
        else { s with cur := 1, paths := paths }
      else { s with cur := 1, paths := Function.update s.paths s.ipath 0 }
    else s
  { s1 with cur := if herm then s1.cur * (link nonloc ilink)ᴴ else s1.cur * link nonloc ilink }

/-- `compute_lx`; `paths0` is the previous content of the output, `jl` what is read outside of the buffer.
`/repo/src/operations/su3_paths/arbitrary.cpp:285-347` -/
noncomputable def computeLx (g : Geo) (F : Nat → Nat → Quad) (rank npaths ntot : Nat) (lfm : Nat → Nat) (ind : List Nat) (jl : M3)
    (paths0 : Nat → M3) : Option (Nat → M3) :=
  let buf := gatherNonloc g F rank ind
  let link := fun (nonloc : Bool) ilink => if nonloc then buf.getD ilink jl else F rank (ilink / 4) (Fin.ofNat 4 ilink)
  let s := (List.range ntot).foldl (computeStep lfm link) ⟨0, 0, paths0⟩
  let paths := Function.update s.paths (npaths - 1) (s.paths (npaths - 1) + s.cur)
  if s.ipath ≠ npaths - 1 then none else some paths

/-! ### Use of the structure: groups of paths to be summed together -/

/-- a movement: direction, and whether forward -/
abbrev Move := Dir × Bool

/-- the calls describing one move -/
def doMove (g : Geo) (rank ntot : Nat) (s : Option St) (m : Move) : Option St :=
  s.bind fun s => if m.2 then moveForward g rank ntot m.1 s else moveBackward g rank ntot m.1 s

/-- the calls describing one path: start, possibly sum to the previous one, move, stop -/
def doPath (g : Geo) (rank npaths ntot : Nat) (summ : Bool) (s : Option St) (p : Nat × List Move) : Option St :=
  ((p.2.foldl (doMove g rank ntot)
    (((s.bind (start g rank p.1)).bind fun s => if summ then summToPrevious s else some s))).bind (stopCurrentPath npaths))

/-- the calls describing a group of paths, all summed in the same output -/
def doGroup (g : Geo) (rank npaths ntot : Nat) (s : Option St) : List (Nat × List Move) → Option St
  | [] => s
  | p :: ps => ps.foldl (doPath g rank npaths ntot true) (doPath g rank npaths ntot false s p)

/-- the constructor and all the groups.  `/repo/src/operations/su3_paths/arbitrary.hpp:39-63`; `lfm0` is the content of the
allocated memory -/
def describe (g : Geo) (rank npaths ntot : Nat) (lfm0 : Nat → Nat) (groups : List (List (Nat × List Move))) : Option St :=
  groups.foldl (doGroup g rank npaths ntot) (some ⟨0, 0, fun _ => 0, lfm0, []⟩)

/-! ### Specification -/

/-- ordered product of the links along a path starting from `x`: a forward move multiplies by the link, a backward one by the
hermitian conjugate of the link of the site reached -/
def pathProd (g : Geo) (U : Coords → Quad) : Coords → List Move → M3
  | _, [] => 1
  | x, (mu, true) :: l => U x mu * pathProd g U (tshift g x mu 1) l
  | x, (mu, false) :: l => (U (tshift g x mu (-1)) mu)ᴴ * pathProd g U (tshift g x mu (-1)) l

/-- where the path ends -/
def pathEnd (g : Geo) : Coords → List Move → Coords
  | x, [] => x
  | x, (mu, d) :: l => pathEnd g (tshift g x mu (if d then 1 else -1)) l

theorem tshift_back {g : Geo} (ok : g.Ok) {x : Coords} (hx : x ∈ box g.L) (mu : Dir) (d : Int) (hd : d = 1 ∨ d = -1) :
    tshift g (tshift g x mu d) mu (-d) = x := by
  rw [mem_box] at hx
  have hL := L_pos ok mu
  have h0 := hx mu
  unfold tshift
  rw [Function.update_self, Function.update_idem]
  refine (Function.update_eq_iff.2 ⟨?_, fun _ _ => rfl⟩)
  have hL' : (0 : Int) < g.L mu := by exact_mod_cast hL
  have h2 := Int.emod_lt_of_pos ((x mu : Int) + d) hL'
  have h3 := Int.emod_nonneg ((x mu : Int) + d) (show (g.L mu : Int) ≠ 0 by omega)
  rw [Int.toNat_of_nonneg h3, Int.emod_add_emod]
  rw [show (x mu : Int) + d + -d = x mu by ring, Int.emod_eq_of_lt (by omega) (by exact_mod_cast h0)]
  omega

/-- C32: the product along an open path transforms with the matrices of its end points only, whatever the path. -/
theorem C32_open_path (g : Geo) (ok : g.Ok) (G : Coords → M3) (hG : AllUnitary g G) (U : Coords → Quad) (l : List Move) (x : Coords)
    (hx : x ∈ box g.L) : pathProd g (transformed g G U) x l * G (pathEnd g x l) = G x * pathProd g U x l := by
  induction l generalizing x with
  | nil => simp [pathProd, pathEnd]
  | cons m l ih =>
    obtain ⟨mu, d⟩ := m
    cases d
    · have hx' := tshift_mem_box ok hx mu (-1)
      have := ih _ hx'
      simp only [pathProd, pathEnd]
      rw [Matrix.mul_assoc]
      simp only [Bool.false_eq_true, if_false]
      rw [this]
      unfold transformed
      rw [show tshift g (tshift g x mu (-1)) mu 1 = x from tshift_back ok hx mu (-1) (.inr rfl)]
      simp only [Matrix.conjTranspose_mul, Matrix.conjTranspose_conjTranspose]
      have h2 := hG _ hx'
      generalize G (tshift g x mu (-1)) = B at *
      calc _ = G x * (U (tshift g x mu (-1)) mu)ᴴ * (Bᴴ * B) * pathProd g U (tshift g x mu (-1)) l := by simp only [Matrix.mul_assoc]
        _ = _ := by rw [h2]; simp only [Matrix.mul_assoc, Matrix.one_mul]
    · have hx' := tshift_mem_box ok hx mu 1
      have := ih _ hx'
      simp only [pathProd, pathEnd]
      rw [Matrix.mul_assoc]
      simp only [if_true]
      rw [this]
      unfold transformed
      have h2 := hG _ hx'
      generalize G (tshift g x mu 1) = B at *
      calc _ = G x * U x mu * (Bᴴ * B) * pathProd g U (tshift g x mu 1) l := by simp only [Matrix.mul_assoc]
        _ = _ := by rw [h2]; simp only [Matrix.mul_assoc, Matrix.one_mul]

/-- C32: the trace of the product along a closed path, of any length, is gauge invariant. -/
theorem C32_closed_path (g : Geo) (ok : g.Ok) (G : Coords → M3) (hG : AllUnitary g G) (U : Coords → Quad) (l : List Move) (x : Coords)
    (hx : x ∈ box g.L) (hc : pathEnd g x l = x) : (pathProd g (transformed g G U) x l).trace = (pathProd g U x l).trace := by
  have h := C32_open_path g ok G hG U l x hx
  rw [hc] at h
  have h1 := hG x hx
  have h2 : G x * (G x)ᴴ = 1 := mul_eq_one_comm.1 h1
  have : pathProd g (transformed g G U) x l = G x * pathProd g U x l * (G x)ᴴ := by
    rw [← h, Matrix.mul_assoc, h2, Matrix.mul_one]
  rw [this, Matrix.trace_mul_comm, ← Matrix.mul_assoc, h1, Matrix.one_mul]

/-- a closed path winding around the lattice -/
example : pathEnd exGeo (fun _ => 0) (List.replicate 4 (1, true)) = fun _ => 0 := by
  funext mu; fin_cases mu <;> decide

/-- the plaquette is a closed path -/
example (g : Geo) (ok : g.Ok) (x : Coords) (hx : x ∈ box g.L) :
    pathEnd g x [(0, true), (1, true), (0, false), (1, false)] = x := by
  simp only [pathEnd, if_true, Bool.false_eq_true, if_false]
  rw [tshift_comm g x (show (0 : Dir) ≠ 1 by decide), show tshift g (tshift g (tshift g x 1 1) 0 1) 0 (-1) = _ from
    tshift_back ok (tshift_mem_box ok hx 1 1) 0 1 (.inl rfl)]
  exact tshift_back ok hx 1 1 (.inl rfl)

end Nissa.Paths
