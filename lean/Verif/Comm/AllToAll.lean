/-
Model of the all-to-all communicator: /repo/src/communicate/all_to_all.hpp, all_to_all.cpp.
`N` is the number of ranks; each object of a rank becomes a function of the rank. MPI is modelled by what it guarantees: a receive gets the
message sent to that rank by the source, and the amounts must match (`none` otherwise: error or deadlock). `none` is also a CRASH or a
memory access out of bounds. `int` is not bounded.
-/
import Mathlib.Logic.Function.Basic
import Mathlib.Data.List.Basic
set_option linter.all false

namespace Nissa.A2A

/-- all_to_all_scattering_list_t, all_to_all.hpp:20-21: pairs (source element, destination element*N + destination rank) -/
abbrev ScatterList := List (Nat × Nat)

/-- all_to_all_comm_t, all_to_all.hpp:41-71. The number of ranks in each list is its length. -/
structure Comm where
  nelOut : Nat
  nelIn : Nat
  listFr : List Nat
  inDest : Nat → Nat
  nperFr : List Nat
  inOff : Nat → Nat
  listTo : List Nat
  outSrc : Nat → Nat
  nperTo : List Nat
  outOff : Nat → Nat

/-- inverse, all_to_all.hpp:79-98 -/
def Comm.inverse (c : Comm) : Comm :=
  { nelOut := c.nelIn, nelIn := c.nelOut, listFr := c.listTo, inDest := c.outSrc, nperFr := c.nperTo, inOff := c.outOff,
    listTo := c.listFr, outSrc := c.inDest, nperTo := c.nperFr, outOff := c.inOff }

/-- number of elements that a rank sends to each other, all_to_all.cpp:203-213 -/
def countTo (N : Nat) (sl : ScatterList) : Nat → Nat :=
  sl.foldl (fun nper e => Function.update nper (e.2 % N) (nper (e.2 % N) + 1)) (fun _ => 0)

/-- one of the two identical loops of setup_nper_rank_other_temp, all_to_all.cpp:25-36 and 39-48, on `rank`: at each step the number received
from recv_rank is what recv_rank has for the rank it is sending to -/
def otherLoop (N : Nat) (rank : Nat) (nper : Nat → Nat → Nat) (start : Nat → Nat) : Nat → Nat :=
  (List.range N).foldl (fun other delta =>
    let recv := (rank + N - delta) % N
    let destOfRecv := (recv + N + delta) % N
    Function.update other recv (nper recv destOfRecv)) start

/-- setup_nper_rank_other_temp, all_to_all.cpp:22-51 -/
def otherTemp (N : Nat) (rank : Nat) (nper : Nat → Nat → Nat) : Nat → Nat :=
  otherLoop N rank nper (otherLoop N rank nper (fun _ => 0))

/-- list of the ranks with a non vanishing number of elements, all_to_all.cpp:73-93 -/
def rankList (N : Nat) (nper : Nat → Nat) : List Nat := (List.range N).filter (fun irank => nper irank ≠ 0)

/-- offsets, all_to_all.cpp:112-125: the first vanishes, the others are obtained adding the number of elements of the previous -/
def offsets (nper : List Nat) : Nat → Nat
  | 0 => 0
  | k + 1 => offsets nper k + nper.getD k 0

/-- the part of the communicator prepared by common_setup_part1, all_to_all.cpp:54-127. When there is no rank to send to, the offsets of the
incoming buffer are left to the zeros of `resize`. -/
def part1 (N : Nat) (nperTo nperFr : Nat → Nat) : Comm :=
  let listTo := rankList N nperTo
  let listFr := rankList N nperFr
  { nelOut := ((List.range N).map nperTo).sum
    nelIn := ((List.range N).map nperFr).sum
    listFr := listFr
    inDest := fun _ => 0
    nperFr := listFr.map nperFr
    inOff := if listTo.length ≠ 0 then offsets (listFr.map nperFr) else fun _ => 0
    listTo := listTo
    outSrc := fun _ => 0
    nperTo := listTo.map nperTo
    outOff := offsets (listTo.map nperTo) }

/-- temporary arrays of setup_knowing_where_to_send -/
structure Fill where
  cur : Nat → Nat
  src : Nat → Nat
  expl : Nat → Nat

/-- one iteration of the loop at all_to_all.cpp:222-237; rank_to_map_list_ranks_to gives the position in the list of ranks -/
def fillStep (N : Nat) (listTo : List Nat) (st : Fill) (e : Nat × Nat) : Fill :=
  let ielTo := e.2 / N
  let rankTo := e.2 - N * ielTo
  let il := listTo.idxOf rankTo
  let ipos := st.cur il
  ⟨Function.update st.cur il (ipos + 1), Function.update st.src ipos e.1, Function.update st.expl ipos ielTo⟩

/-- the whole loop, starting from uninitialised arrays -/
def fill (N : Nat) (c : Comm) (junk : Nat → Nat) (sl : ScatterList) : Fill :=
  sl.foldl (fillStep N c.listTo) ⟨c.outOff, junk, junk⟩

/-- result of receiving a message of `n` elements at position `off` of a buffer -/
def writeSeg {α : Type} (buf : Nat → α) (off n : Nat) (f : Nat → α) : Nat → α := fun i => if off ≤ i ∧ i < off + n then f (i - off) else buf i

/-- receiving, on `rank`, one message from each of the ranks of the list: the message is found in the outgoing buffer of the sender -/
def recvAll {α : Type} (rank : Nat) (listFr nperFr : List Nat) (inOff : Nat → Nat) (listTo nperTo : Nat → List Nat) (outOff : Nat → Nat → Nat)
    (outBuf : Nat → Nat → α) (ks : List Nat) (buf : Nat → α) : Option (Nat → α) :=
  ks.foldlM (fun buf k =>
    let q := listFr.getD k 0
    let k' := (listTo q).idxOf rank
    if k' < (listTo q).length ∧ (nperTo q).getD k' 0 = nperFr.getD k 0 then
      some (writeSeg buf (inOff k) (nperFr.getD k 0) (fun j => outBuf q (outOff q k' + j)))
    else none) buf

/-- check for multiple assignments, all_to_all.cpp:170-184: `true` if the code CRASHes -/
def dupCheck (nelIn : Nat) (dest : Nat → Nat) : Option (Nat → Nat) :=
  (List.range nelIn).foldlM (fun check iel =>
    let idest := dest iel
    if check idest = 1 then none else some (Function.update check idest (check idest + 1))) (fun _ => 0)

/-- the communicators of all the ranks after common_setup_part1 -/
def part1Of (N : Nat) (sl : Nat → ScatterList) (rank : Nat) : Comm :=
  part1 N (countTo N (sl rank)) (otherTemp N rank (fun r => countTo N (sl r)))

/-- setup_knowing_where_to_send on `rank`, all_to_all.cpp:195-252; `none`: CRASH. `sl` are the lists given by all the ranks -/
def setup (N : Nat) (sl : Nat → ScatterList) (junk : Nat → Nat) (rank : Nat) : Option Comm :=
  let c := part1Of N sl rank
  (recvAll rank c.listFr c.nperFr c.inOff (fun q => (part1Of N sl q).listTo) (fun q => (part1Of N sl q).nperTo) (fun q => (part1Of N sl q).outOff)
    (fun q => (fill N (part1Of N sl q) junk (sl q)).expl) (List.range c.listFr.length) junk).bind (fun dest =>
  (dupCheck c.nelIn dest).bind (fun _ =>
  some { c with outSrc := (fill N c junk (sl rank)).src, inDest := dest }))

/-- the communicators of all the ranks after common_setup_part1, when the ranks know what to ask: the entries of the lists are
(destination element, source element*N + source rank), the reverse of all_to_all_gathering_list_t, all_to_all.hpp:24-31 -/
def part1AskOf (N : Nat) (gl : Nat → ScatterList) (rank : Nat) : Comm :=
  part1 N (otherTemp N rank (fun r => countTo N (gl r))) (countTo N (gl rank))

/-- setup_knowing_what_to_ask on `rank`, all_to_all.cpp:254-306; the loop filling the buffers is that of the other function with the
roles of the two sides exchanged -/
def setupAsk (N : Nat) (gl : Nat → ScatterList) (junk : Nat → Nat) (rank : Nat) : Option Comm :=
  let c := part1AskOf N gl rank
  let f := fun q => fill N (part1AskOf N gl q).inverse junk (gl q)
  (recvAll rank c.listTo c.nperTo c.outOff (fun q => (part1AskOf N gl q).listFr) (fun q => (part1AskOf N gl q).nperFr) (fun q => (part1AskOf N gl q).inOff)
    (fun q => (f q).expl) (List.range c.listTo.length) junk).bind (fun src =>
  (dupCheck c.nelIn (f rank).src).bind (fun _ =>
  some { c with outSrc := src, inDest := (f rank).src }))

/-- communicate, all_to_all.cpp:330-445, on `rank`; `order` is the order in which the final loop is executed -/
def communicate {α : Type} (C : Nat → Comm) (rank : Nat) (order : List Nat) (junk : Nat → α) (inp : Nat → Nat → α) (out : Nat → α) : Option (Nat → α) :=
  let c := C rank
  let outBuf : Nat → Nat → α := fun q i => if i < (C q).nelOut then inp q ((C q).outSrc i) else junk i
  -- messages from the other ranks
  (recvAll rank c.listFr c.nperFr c.inOff (fun q => (C q).listTo) (fun q => (C q).nperTo) (fun q => (C q).outOff) outBuf
    ((List.range c.listFr.length).filter (fun k => c.listFr.getD k 0 ≠ rank)) junk).bind (fun inBuf =>
  -- local copy
  let frThis := c.listFr.idxOf rank
  let toThis := c.listTo.idxOf rank
  (if frThis ≠ c.listFr.length ∧ toThis ≠ c.listTo.length then
    if c.nperTo.getD toThis 0 ≠ c.nperFr.getD frThis 0 then none
    else if frThis < c.nperTo.length then
      -- the number of elements copied is taken from the position of this rank in the list of the senders
      some (writeSeg inBuf (c.inOff frThis) (c.nperTo.getD frThis 0) (fun j => outBuf rank (c.outOff toThis + j)))
    else none
  else some inBuf).bind (fun inBuf =>
  -- final placement: as many elements as those sent
  if c.nelIn < c.nelOut then none
  else some (order.foldl (fun out iel => Function.update out (c.inDest iel) (inBuf iel)) out)))

end Nissa.A2A
