import Verif.Flow.Output
import Verif.Sort.Compare
import Verif.Scalar.Model

/-!
# The sort tool (`util/sort.cc`, `Set::sort`) and the tool that checks its result (`util/verifysort.cc`)

From the bytes of the input files to the bytes of the output. Coordinates are doubles, taken as rationals.
-/

namespace Verif.Flow
open Verif.Rules Verif.Params Verif.Files Verif.Endian Verif.Decomp Verif.Sort Verif.Scalar Verif.FP

/-- Items read or set as 64-bit integers, `param_utils.hh` 28-86: the conversions of `getPrm` and `setPrm` for
`exseis::utils::Integer` and `size_t`, both 64 bits. (A `double` is only met if a rule has a number of `default_metas` as
floating point, which no rule below does.) -/
def asInt : Conv ℚ (BitVec 64) where
  toF v := rnd v.toInt
  toI v := v
  toS v := v.truncate 16
  toT v := v
  ofF q := BitVec.ofInt 64 (trunc q)
  ofI v := v
  ofS v := v.signExtend 64
  ofT v := v
  zero := 0

/-- Items read as `double`, `param_utils.hh` 28-50. -/
def asDouble : Conv ℚ ℚ where
  toF v := v
  toI v := BitVec.ofInt 64 (trunc v)
  toS v := BitVec.ofInt 16 (trunc v)
  toT v := BitVec.ofInt 64 (trunc v)
  ofF v := v
  ofI v := rnd v.toInt
  ofS v := rnd v.toInt
  ofT v := rnd v.toNat
  zero := 0

/-- The items of the rule of a sort: inline, crossline, source, receiver and midpoint coordinates, offset, receiver water
depth, trace number. `Set.cc` 574-577. -/
def sortItems : List Nat := [26, 27, 20, 21, 22, 23, 24, 25, 14, 19, 5]

/-- The numbers given to the traces of one file, `Cache.cc` 45-51: `off` the number of traces on the processes before,
`loff` of the files before, `nf` the number of files, `c` the number of this one, from trace `i` of the list on. -/
def setNumbers (off loff nf c : Nat) (i : Nat) (p : Param ℚ) : List Nat → Res (Param ℚ)
  | [] => .ok p
  | k :: l => do
    let p ← setPrm asInt (loff + i) gtn (BitVec.ofNat 64 (add64 (add64 off loff) k)) p
    let p ← setPrm asInt (loff + i) ltn (BitVec.ofNat 64 (add64 (mul64 k nf) c)) p
    setNumbers off loff nf c (i + 1) p l

/-- The loop over the files, `Cache.cc` 42-54: for each its bytes and the traces of it that the process has. -/
def loadFiles (ns nf off : Nat) : Nat → Nat → Param ℚ → List (Disk × List Nat) → Res (Param ℚ)
  | _, _, p, [] => .ok p
  | c, loff, p, x :: l => do
    let q ← readList dbl asInt false ns x.2 none (some p) loff x.1
    match q.2 with
    | none => .ub
    | some p => do
      let p ← setNumbers off loff nf c 0 p x.2
      loadFiles ns nf off (c + 1) (loff + x.2.length) p l

/-- What the comparisons of `src/sort.cc` 62-362 can read of trace `i`. Each reads some of the items; all are in the rules
below. -/
def trAt (p : Param ℚ) (i : Nat) : Res Tr := do
  let sx ← getPrm asDouble i 20 p
  let sy ← getPrm asDouble i 21 p
  let rx ← getPrm asDouble i 22 p
  let ry ← getPrm asDouble i 23 p
  let il ← getPrm asInt i 26 p
  let xl ← getPrm asInt i 27 p
  let ro ← getPrm asInt i 14 p
  let lt ← getPrm asInt i ltn p
  .ok ⟨sx, sy, rx, ry, il.toInt, xl.toInt, ro.toInt, lt.toInt⟩

/-- The record of trace `i` that a sort moves; the rule of the sort copies no headers. The other items of the rule move
along (`src/sort.cc` 703-862) and are not looked at afterwards. -/
def recAt (p : Param ℚ) (i : Nat) : Res Rec := do
  let t ← trAt p i
  let g ← getPrm asInt i gtn p
  .ok ⟨t, g.toNat, []⟩

/-- `Cache::getCache` on one process, `Cache.cc` 29-54, and what the sort sees of the result. -/
def cachePart (rule : Rule) (ns off : Nat) (l : List (Disk × List Nat)) : Res (List Rec) := do
  let n := (l.map fun x => x.2.length).sum
  let p ← loadFiles ns l.length off 0 0 (Params.mk 0 rule n) l
  collect (recAt p) (List.range n)

/-- The number of traces on the processes before `r`: `comm->offset(lnt)`, `Cache.cc` 36. -/
def tracesBefore (fs : List Input) (r : Nat) : Nat :=
  ((List.range r).map fun q => (fs.map fun f => (f.ilst q).length).sum).sum

/-- The new places of a group: `D` has for every process the list of each file. `Set.cc` 422-426. -/
def replace (D : List (List (List Nat))) (fs : List Input) : List Input :=
  fs.zipIdx.map fun x => { x.1 with olst := fun r => ((D.getD r []).getD x.2 []) }

/-- An operation in the queue of a set: a sort (`FuncOpt::SubSetOnly`, `Set.cc` 585-604), given by what `std::sort` does with
its comparison, or an operation on single traces (666-712, 752-800). -/
inductive Queued where
  | sort (srt : List Rec → List Rec)
  | single (op : BlockOp)

/-- The sorts that are carried out: those at the head of the queue, `Set.cc` 428-433 and 455-457. -/
def leadingSorts : List Queued → List (List Rec → List Rec)
  | .sort s :: l => s :: leadingSorts l
  | _ => []

/-- What is left of the queue after these, `Set.cc` 428-433 and 449. -/
def afterSorts : List Queued → List Queued
  | .sort _ :: l => afterSorts l
  | l => l

/-- The operations on single traces that are carried out, `Set.cc` 140-169: from the head of what is left up to the first of
another kind. `startSingle` returns names, so that the rest of the queue is left alone (480-486). -/
def leadingOps : List Queued → List BlockOp
  | .single f :: l => f :: leadingOps l
  | _ => []

/-- The rule of the set after the calls of `sort`, each of which adds the items of the rule of the sort, `Set.cc` 572-582. -/
def queueRule (items : Rules.Map) : List Queued → Rule → Res Rule
  | [], r => .ok r
  | .sort _ :: l, r => do
    let r ← addRules r items
    queueRule items l r
  | .single _ :: l, r => queueRule items l r

/-- The records of the block after a sort of it, `src/sort.cc` 964-966: the sort is in place. -/
def sortedParts (srt : List Rec → List Rec) (srtp : List (Nat × Nat) → List (Nat × Nat)) (dflt : Rec) (fuel : Nat)
    (parts : List (List Rec)) : List (List Rec) :=
  if parts.any (fun p => p.length < 3) then parts
  else ((sortTraces { srt := srt, msg := id, key := Rec.gtn, dflt := dflt } srtp Rec.gtn true fuel parts).map Prod.fst).getD
    parts

/-- Sorts one after the other, `calcFuncS`, `Set.cc` 401-434: each gets the block that the cache has for the files
(`Cache.cc` 25-28 and 71-73), as the sort before left it, and sets the places of all files. `.abort` stands for a sort that is not
done after `fuel` rounds. -/
def sortPlaces (srtp : List (Nat × Nat) → List (Nat × Nat)) (dflt : Rec) (fuel P : Nat) :
    List (List Rec → List Rec) → List (List Rec) → List Input → Res (List Input)
  | [], _, fs => .ok fs
  | srt :: l, parts, fs =>
    match setSort (fun ps => (sortTraces { srt := srt, msg := id, key := Rec.gtn, dflt := dflt } srtp Rec.gtn true
        fuel ps).map Prod.snd) parts with
    | none => .abort
    | some L => do
      let D ← collect (fun r => deal (fs.map fun f => (f.olst r).length) (L.getD r [])) (List.range P)
      sortPlaces srtp dflt fuel P l (sortedParts srt srtp dflt fuel parts) (replace D fs)

/-- The files of a group with the places that the sorts give them, `startSubset`, `Set.cc` 436-450, down to one group: the
headers are read when the first sort asks for them (408). -/
def placed (srtp : List (Nat × Nat) → List (Nat × Nat)) (dflt : Rec) (fuel P : Nat) (srule : Rule) (ns : Nat)
    (sorts : List (List Rec → List Rec)) (fs : List Input) : Res (List Input) :=
  match sorts with
  | [] => .ok fs
  | s :: l => do
    let parts ← collect (fun r => cachePart srule ns (tracesBefore fs r) (fs.map fun f => (f.disk, f.ilst r))) (List.range P)
    sortPlaces srtp dflt fuel P (s :: l) parts fs

/-- `Set set(piol, pattern, prefix);`, the calls that queue `queue`, and the output, down to the group with key `k`:
`Set.cc` 34-109, 452-500, 572-604, 401-434 and 171-268. `srtp` is `std::sort` of pairs; `fuel` bounds the rounds of the
parallel sorts, `.abort` stands for not being done after as many. -/
def queueSet (queue : List Queued) (srtp : List (Nat × Nat) → List (Nat × Nat)) (dflt : Rec) (fuel : Nat)
    (idx : List Nat → List Nat) (sched : List Chunk → List Chunk) (P : Nat) (code : ℚ → Int) (msg : List Nat)
    (ds : List Disk) (k : Key) (out : Disk) : Res Disk := do
  let infos ← collect openRead ds
  let sts ← collect (fun r => addAll P r [] (infos.map (fileIn code))) (List.range P)
  let rule ← ctor [COPY] true false false
  let srule ← ctor sortItems true true false
  let rule ← queueRule srule.map queue rule
  match members code k (ds.zip infos) with
  | [] => .ok out
  | x :: l => do
    let fs ← placed srtp dflt fuel P srule x.2.ns (leadingSorts queue) (inputsOf sts k (x :: l))
    outputGroup (leadingOps (afterSorts queue)) dbl asInt 0 rule idx sched P x.2.ns x.2.inc msg fs out

/-- `Set set(piol, pattern, prefix); set.sort(type);` and the output when the set is destroyed, `util/sort.cc` 46-47, down to
the group with key `k`. -/
def sortSet (srt : List Rec → List Rec) (srtp : List (Nat × Nat) → List (Nat × Nat)) (dflt : Rec) (fuel : Nat)
    (idx : List Nat → List Nat) (sched : List Chunk → List Chunk) (P : Nat) (code : ℚ → Int) (msg : List Nat)
    (ds : List Disk) (k : Key) (out : Disk) : Res Disk :=
  queueSet [.sort srt] srtp dflt fuel idx sched P code msg ds k out

/-- `checkOrder` on process `r` of `P`, `src/sort.cc` 403-420, called from `util/verifysort.cc` 48-51 for the file `d`. -/
def verifySort (o : OffFn) (ty : SortType) (P r : Nat) (d : Disk) : Res Bool := do
  let i ← openRead d
  let dec ← blockDecomposition i.nt P r
  let rule ← ctor [] true true false
  let q ← readTrace dbl asInt false i.ns i.nt dec.globalOffset dec.localSize none
    (some (Params.mk 0 rule dec.localSize)) 0 d
  match q.2 with
  | none => .ub
  | some p => do
    let l ← collect (trAt p) (List.range dec.localSize)
    .ok (checkOrder (getComp o ty) l)

end Verif.Flow
