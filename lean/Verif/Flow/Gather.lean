import Verif.Decomp.Model

/-!
# Gathers: finding them (`src/gather.cc`) and dealing them out (`src/Flow/Set.cc`)
-/

namespace Verif.Flow

open Verif.Decomp

/-! ## Which process treats which gather, and where it reads and writes -/

/-- The gathers process `r` of `P` treats, `Set.cc` 294-307: of `G` gathers its share is as large as a block of the
decomposition, but dealt out in turn; every one of the `k` consecutive gather operations appends the list again. -/
def gNums (P G k r : Nat) : Res (List Nat) := do
  let dec ← blockDecomposition G P r
  .ok (List.replicate k ((List.range dec.localSize).map fun i => add64 (mul64 i P) r)).flatten

/-- The rounds process `r` takes part in, `Set.cc` 329, 331, 365: one for every entry of `gNums`, then
`max(numGather) - numGather` without a gather. `max` is over the processes (a collective call). -/
def rounds (P G k r : Nat) : Res Nat := do
  let mine ← blockDecomposition G P r
  let first ← blockDecomposition G P 0
  let nums ← gNums P G k r
  -- the first process has the largest share
  .ok (nums.length + (first.localSize - mine.localSize))

/-- What one process does with one gather: its number, and the first trace and number of traces. `Set.cc` 329-364. -/
structure Piece where
  gather : Nat
  start : Nat
  count : Nat
deriving DecidableEq, Repr

/-- The number of traces process `r` contributes to round `t`: those of its gather, none if it has no more.
`Set.cc` 341-349. -/
def turn (sizes : List Nat) (nums : Nat → List Nat) (t r : Nat) : Nat :=
  match (nums r)[t]? with
  | some g => sizes.getD g 0
  | none => 0

/-- The sum over all processes in round `t` (`comm->sum`, `Set.cc` 349, 363). -/
def roundSum (P : Nat) (sizes : List Nat) (nums : Nat → List Nat) (t : Nat) : Nat :=
  ((List.range P).map fun r => turn sizes nums t r).sum % 2 ^ 64

/-- The pieces of process `r`: in round `t` the sums of the rounds before (`iOffset`, `wOffset`) plus the sum over the
processes before in this round (`comm->offset`), `Set.cc` 345-349 for reading and 354-366 for writing (there with the
sizes of the treated gathers). -/
def pieces (P : Nat) (sizes : List Nat) (nums : Nat → List Nat) (r : Nat) : List Piece :=
  (nums r).zipIdx.map fun p =>
    let base := (List.range p.2).foldl (fun s t => add64 s (roundSum P sizes nums t)) 0
    let off := ((List.range r).map fun q => turn sizes nums p.2 q).sum % 2 ^ 64
    ⟨p.1, add64 base off, sizes.getD p.1 0⟩

/-! ## Finding the gathers -/

/-- Number of traces, and the inline and crossline numbers as one key. `gather.hh` 22-31. -/
structure GInfo (K : Type) where
  count : Nat
  key : K
deriving DecidableEq, Repr

variable {K : Type} [DecidableEq K]

/-- The loop over the local traces, `gather.cc` 40-52, the last run being `cur`. -/
def scan (cur : GInfo K) : List K → List (GInfo K)
  | [] => [cur]
  | k :: ks => if k = cur.key then scan { cur with count := cur.count + 1 } ks else cur :: scan ⟨1, k⟩ ks

/-- The runs of the local traces, `gather.cc` 34-52. Without traces the first parameter does not exist. -/
def localRuns : List K → Res (List (GInfo K))
  | [] => .ub
  | k :: ks => .ok (scan ⟨1, k⟩ ks)

/-- Traces added from the processes after this one, `gather.cc` 69-76: as long as their first key is `k`. -/
def following (k : K) : List (List (GInfo K)) → Nat
  | [] => 0
  | l :: rest =>
    match l.head? with
    | some g => if g.key = k then g.count + following k rest else 0
    | none => 0

/-- Add `n` to the last count. `gather.cc` 69-76. -/
def addLast (n : Nat) : List (GInfo K) → List (GInfo K)
  | [] => []
  | [g] => [{ g with count := g.count + n }]
  | g :: gs => g :: addLast n gs

/-- Whether the first run continues the last one of the process before, `gather.cc` 60-65. -/
def startAt (prev : Option (List (GInfo K))) (front : GInfo K) : Nat :=
  match prev.bind (fun l => l.getLast?) with
  | some b => if b.key = front.key then 1 else 0
  | none => 0

/-- One process's part of the result, `gather.cc` 54-88: `prev` are the runs of the process before (none for the
first), `mine` its own, `rest` those of the processes after. Reading `ilf[rank + 1]` and `xlf[rank + 1]` on the last
process is out of bounds (67): `past = none` makes that undefined behaviour; `past = some v` supposes that the read
gives the value `v`, which then makes no difference as the loop has no further process to look at. -/
def contribute (past : Option K) (prev : Option (List (GInfo K))) (mine : List (GInfo K)) (rest : List (List (GInfo K))) :
    Res (List (GInfo K)) :=
  match mine.head?, mine.getLast? with
  | some front, some back => do
    let start := startAt prev front
    let all ←
      if start < mine.length then
        match rest with
        | [] => match past with
          | none => Res.ub
          | some v => .ok (if v = back.key then addLast 0 mine else mine)
        | l :: _ => match l.head? with
          | some g => .ok (if g.key = back.key then addLast (following back.key rest) mine else mine)
          | none => Res.ub
      else .ok mine
    .ok (all.drop start)
  | _, _ => .ub

/-- All contributions in rank order: `line` is filled from `offset` on with the entries of each process,
`gather.cc` 79-88. The distributed vector is modelled as the list it stands for. -/
def combine (past : Option K) (prev : Option (List (GInfo K))) : List (List (GInfo K)) → Res (List (GInfo K))
  | [] => .ok []
  | l :: rest => do
    let a ← contribute past prev l rest
    let b ← combine past (some l) rest
    .ok (a ++ b)

/-- `getGathers`, `gather.cc` 27-92, on processes with the keys `parts`. Keys are compared after conversion to
`size_t`, which loses nothing. -/
def getGathers (past : Option K) (parts : List (List K)) : Res (List (GInfo K)) := do
  let runs ← parts.foldr (fun p acc => do
    let l ← localRuns p
    let ls ← acc
    .ok (l :: ls)) (.ok [])
  combine past none runs

/-- `getIlXlGathers`, `gather.cc` 94-108: every process reads its block of the file's traces. -/
def getIlXlGathers (past : Option K) (P : Nat) (file : List K) : Res (List (GInfo K)) := do
  let parts ← (List.range P).foldr (fun r acc => do
    let dec ← blockDecomposition file.length P r
    let ls ← acc
    .ok ((file.drop dec.globalOffset).take dec.localSize :: ls)) (.ok [])
  getGathers past parts

end Verif.Flow
