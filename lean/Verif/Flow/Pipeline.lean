import Verif.Basic
import Mathlib.Data.List.Sort

/-!
# The operations queued on a set (`src/Flow/Set.cc`)

One group of traces on one process. A trace is a value of an arbitrary type; what an operation does to a trace or a
gather is an arbitrary function.
-/

namespace Verif.Flow

/-- An operation of the queue `func`, by its option (`Op.hh`, `OpOpt`): `SubSetOnly` for `sort` (`Set.cc` 572-604),
`Gather` for `toAngle` (606-662), `SingleTrace` for `taper`, `AGC`, `temporalFilter` and the last operation that
`output` adds (505-509). Sorting is by a key; the sort breaks ties by the local trace number (`sort.cc` 98-104). A single-trace operation treats every trace by itself, so the division into blocks does not show. -/
inductive Op (T : Type) where
  | sort (key : T → Nat)
  | gather (f : List T → List T)
  | single (f : T → T)

variable {T : Type}

/-- Whether `opt.check(FuncOpt::Gather)`. `Set.cc` 300-310. -/
def Op.isGather : Op T → Bool
  | .gather _ => true
  | _ => false

/-- The local trace numbers given before a sort, `Cache.cc` 48-50: trace `i` of the `c`-th of `n` files has `i * n + c`.
(On one process `ilst` is `0, 1, …`. Numbers stay below `2^64`.) `c` is the number of the first file of the list. -/
def localNumbers (n : Nat) : Nat → List (List T) → List Nat
  | _, [] => []
  | c, f :: fs => ((List.range f.length).map fun i => i * n + c) ++ localNumbers n (c + 1) fs

/-- The list a sort returns: for every trace the number of traces that go before it, where `ltn` are the local trace
numbers (what the parallel sort returns is `C29_positions_partial`). Stands for `Set.cc` 591-603. -/
def ranks (key : T → Nat) (ltn : List Nat) (ts : List T) : List Nat :=
  (ts.zip ltn).map fun p => (ts.zip ltn).countP fun q => key q.1 < key p.1 || (key q.1 == key p.1 && q.2 < p.2)

/-- A sort on one process: the queued function (`Set.cc` 591-603) returns an empty list for fewer than three traces, and
`calcFuncS` then copies as many numbers as there are traces from the list returned (418-426), reading outside the list
if it is shorter. -/
def sortStep (key : T → Nat) (ltn : List Nat) (ts : List T) : Res (List Nat) :=
  let trlist := if ts.length < 3 then [] else ranks key ltn ts
  if trlist.length < ts.length then .ub else .ok (trlist.take ts.length)

/-- The file that results from writing the `i`-th trace at position `pos[i]`, `Set.cc` 228-243. For the position
lists that occur (permutations of `0 … n-1`) this is the order by position. -/
def written (pos : List Nat) (ts : List T) : List T :=
  ((pos.zip ts).insertionSort fun a b => a.1 ≤ b.1).map Prod.snd

/-- The state of the set: the traces in the order of the input (files in order of adding, traces in file order), their
local trace numbers, the output positions `olst`, and whether the group consists of several files. `Set.hh` 51-57. -/
structure St (T : Type) where
  traces : List T
  ltn : List Nat
  pos : List Nat
  many : Bool

/-- A set just made from files: `Set::add`, `Set.cc` 65-85. -/
def fresh (files : List (List T)) : St T :=
  ⟨files.flatten, localNumbers files.length 0 files, List.range files.flatten.length, decide (1 < files.length)⟩

/-- `Set::calcFunc` on a block with `type == SingleTrace`, `Set.cc` 140-169: the leading single-trace operations, in
order. -/
def blockSingle : List (Op T) → List T → List T
  | .single f :: rest, b => blockSingle rest (b.map f)
  | _, b => b

/-- `Set::calcFunc` on a block with `type == Gather`, `Set.cc` 140-169. After a gather operation the iterator moves on
and the switch falls through: a single-trace operation is applied too and the type becomes `SingleTrace`; any other
operation is passed over. With nothing after the gather operation the end iterator is dereferenced (161). -/
def blockGather : List (Op T) → List T → Res (List T)
  | [], b => .ok b
  | [.gather _], _ => .ub
  | .gather g :: .single f :: rest, b => .ok (blockSingle rest ((g b).map f))
  | .gather g :: _ :: rest, b => blockGather rest (g b)
  | _ :: _, b => .ok b

/-- `readTrace` of `n` traces at `off` into a block of `n` blank traces: at the end of the file nothing is read, beyond
it almost `2^64` traces are asked for (`C22_beyond_refuted`). `Set.cc` 341-349 with `ReadSEGY.cc` 212-229. -/
def readBlock (blank : T) (ts : List T) (off n : Nat) : Res (List T) :=
  if n ≠ 0 ∧ ts.length < off then .ub
  else
    let got := (ts.drop off).take n
    .ok (got ++ List.replicate (n - got.length) blank)

/-- The loop over the gathers on one process, `Set.cc` 329-364: gather sizes in the order of `gNums`, reading on from
`off`. The blocks are written one after the other. -/
def gatherLoop (blank : T) (ops : List (Op T)) (ts : List T) : Nat → List Nat → Res (List T)
  | _, [] => .ok []
  | off, n :: ns => do
    let b ← readBlock blank ts off n
    let o ← blockGather ops b
    let rest ← gatherLoop blank ops ts (off + n) ns
    .ok (o ++ rest)

/-- The number of consecutive gather operations at the front, `Set.cc` 300-310. -/
def gatherCount : List (Op T) → Nat
  | .gather _ :: rest => gatherCount rest + 1
  | _ => 0

/-- `Set::startGather`, `Set.cc` 270-398, up to the file it writes: with several files the set is first written to one
(273-292), else the file is read in its own order. `sizes` are the gathers of a file (`getIlXlGathers`); every gather
operation appends all gather numbers to `gNums` once more (298-310). -/
def startGather (blank : T) (sizes : List T → List Nat) (st : St T) (ops : List (Op T)) : Res (List T) :=
  let src := if st.many then written st.pos st.traces else st.traces
  gatherLoop blank ops src 0 (List.replicate (gatherCount ops) (sizes src)).flatten

/-- `Set::calcFunc` over the queue, `Set.cc` 452-500: the names returned and the file last written. `skip` while the
loop passes over the gather operations just done (475-479). The result of the recursive call is dropped (497-500).
Names are not spelt out: a name is `()`. -/
def run (blank : T) (sizes : List T → List Nat) : Bool → St T → List (Op T) → Res (List Unit × Option (List T))
  | _, _, [] => .ok ([], none)
  | _, st, .sort key :: rest => do
    let pos ← sortStep key st.ltn st.traces
    let r ← run blank sizes false { st with pos := pos } rest
    .ok ([], r.2)
  | true, st, .gather _ :: rest => run blank sizes true st rest
  | false, st, .gather g :: rest => do
    let out ← startGather blank sizes st (.gather g :: rest)
    if rest.all Op.isGather then .ok ([()], some out)
    else do
      let r ← run blank sizes true (fresh [out]) rest
      .ok ([], r.2)
  | _, st, .single f :: rest => .ok ([()], some (written st.pos (blockSingle (.single f :: rest) st.traces)))

/-- `Set::output`, `Set.cc` 502-515: an operation that does nothing is appended, then the queue is run. -/
def output (blank : T) (sizes : List T → List Nat) (st : St T) (ops : List (Op T)) : Res (List Unit × Option (List T)) :=
  run blank sizes false st (ops ++ [.single id])

end Verif.Flow
