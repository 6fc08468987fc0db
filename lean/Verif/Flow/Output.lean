import Verif.Flow.Rounds
import Verif.Flow.Set
import Verif.Flow.Process
import Verif.File.Writer

/-!
# Writing a set, down to the bytes (`Set::startSingle`, `src/Flow/Set.cc` 171-268)

The operations queued are operations on single traces (`Flow/Process.lean`), or none. Floating point values are of any
type `F`. The blocks of different processes reach the output file in any order: the order is a parameter.
-/

namespace Verif.Flow
open Verif.Rules Verif.Params Verif.Files Verif.Endian

/-- `Rule::paramMem`, `src/Rule.cc` 372-378, with the sizes of `int64_t`, `int16_t`, `double` and `size_t`. -/
def paramMem (r : Rule) : Nat :=
  r.cnt .long * 8 + r.cnt .short * 2 + r.cnt .float * 8 + r.cnt .index * 8 + (if r.cnt .copy ≠ 0 then 240 else 0)

/-- A block of one process: the number of its file in the group, the traces read, and their places in the output.
`Set.cc` 219-229. -/
structure Chunk where
  file : Nat
  ilst : List Nat
  olst : List Nat
deriving DecidableEq, Repr, Inhabited

/-- The blocks of one process for file `f`, from trace `i` of its list on. `Set.cc` 218-229. (Lists have fewer than
`2^63` elements, so `i + max` does not wrap.) -/
def blockList (f max : Nat) (ilst olst : List Nat) (i : Nat) : List Chunk :=
  if _ : i < ilst.length ∧ 0 < max then
    let n := if i + max < ilst.length then max else ilst.length - i
    ⟨f, (ilst.drop i).take n, (olst.drop i).take n⟩ :: blockList f max ilst olst (i + max)
  else []
termination_by ilst.length - i

variable {F : Type}

/-- The loop that puts a block in the order of the output, `Set.cc` 237-243, from row `j`: `l` is the rest of
`sortlist`, `t` and `p` what was read. Both parameter structures share their rule (230, 235). -/
def arrange (ops : FloatOps F) (ns : Nat) (t : Arr Byte) (p : Param F) (t' : Arr Byte) (p' : Param F) (j : Nat) :
    List Nat → Res (Arr Byte × Param F)
  | [] => .ok (t', p')
  | s :: l => do
    let p' ← cpyPrm ops s p j p' true
    let t' ← t.copy (4 * (s * ns)) t' (4 * (j * ns)) (4 * ns)
    arrange ops ns t p t' p' (j + 1) l

/-- The output places of a block in the order in which it is written, `Set.cc` 242. -/
def placesOf (idx : List Nat → List Nat) (b : Chunk) : List Nat := (idx b.olst).map fun j => b.olst[j]?.getD 0

/-- One block, `Set.cc` 219-249: read from file `d`, put in order, worked on by the operations queued, and written. `idx` is
`getSortIndex`, `src/sort.cc` 29-37. -/
def runBlock (queue : List BlockOp) (ops : FloatOps F) (cv : Conv F (BitVec 64)) (zero : F) (rule : Rule) (ns : Nat)
    (idx : List Nat → List Nat) (d : Disk) (ibm : Bool) (b : Chunk) (out : Disk) : Res Disk := do
  let n := b.ilst.length
  let q ← readList ops cv ibm ns b.ilst (some (.fill (4 * (n * ns)) 0#8)) (some (mk zero rule n)) 0 d
  match q.1, q.2 with
  | some t, some p => do
    let (t', p') ← arrange ops ns t p (.fill (4 * (n * ns)) 0#8) (mk zero rule n) 0 (idx b.olst)
    let t' ← runQueue queue n ns t'
    let (out, _) ← writeTraceT ops ns (.list (placesOf idx b)) n (some t') (some p') 0 out
    .ok out
  | _, _ => .ub

/-- A file of a group: its bytes, whether its numbers are in the IBM format, and for each process the traces it has of
the file with their places in the output. `FileDesc.hh` 19-28. -/
structure Input where
  disk : Disk
  ibm : Bool
  ilst : Nat → List Nat
  olst : Nat → List Nat

/-- Blocks one after the other in the order in which they reach the file. `Set.cc` 209-265. -/
def runBlocks (queue : List BlockOp) (ops : FloatOps F) (cv : Conv F (BitVec 64)) (zero : F) (rule : Rule) (ns : Nat)
    (idx : List Nat → List Nat) (fs : List Input) : List Chunk → Disk → Res Disk
  | [], out => .ok out
  | b :: l, out =>
    match fs[b.file]? with
    | none => .ub
    | some f => do
      let out ← runBlock queue ops cv zero rule ns idx f.disk f.ibm b out
      runBlocks queue ops cv zero rule ns idx fs l out

/-- All blocks of process `r` for a file, `Set.cc` 218-250. -/
def blocksOf (max : Nat) (k : Nat) (f : Input) (r : Nat) : List Chunk := blockList k max (f.ilst r) (f.olst r) 0

/-- The blocks of all `P` processes for the files from number `k` on. `Set.cc` 209-250. -/
def allBlocks (max P : Nat) : Nat → List Input → List Chunk
  | _, [] => []
  | k, f :: fs => (List.range P).flatMap (blocksOf max k f) ++ allBlocks max P (k + 1) fs

/-- The number of traces of the process that has most of a file, `Set.cc` 214. -/
def biggestOf (P : Nat) (f : Input) : Nat := ((List.range P).map fun r => (f.ilst r).length).foldl Max.max 0

/-- The places process `r` passes in its calls of `writeTraceNonContiguous`, `Set.cc` 209-265: those of its blocks, and
none in the rounds in which only others have blocks. -/
def writesOf (idx : List Nat → List Nat) (max P r : Nat) : Nat → List Input → List (List Nat)
  | _, [] => []
  | k, f :: fs =>
    let lnt := (f.ilst r).length
    let biggest := biggestOf P f
    let extra := sub64 (add64 (biggest / max) (if 0 < biggest % max then 1 else 0))
      (add64 (lnt / max) (if 0 < lnt % max then 1 else 0))
    ((blocksOf max k f r).map (placesOf idx) ++ List.replicate extra []) ++ writesOf idx max P r (k + 1) fs

/-- The writer of a process after its calls, `Set.cc` 196-201 and 247-263. -/
def writerOf (ns : Nat) (inc : ℚ) (msg : List Nat) (calls : List (List Nat)) : W :=
  calls.foldl W.writeList (((W.new.writeNs ns).writeInc inc).writeText msg)

/-- `startSingle` for one group on all processes, `Set.cc` 174-265, with the closing of the output at the end of the loop
body. `sched` gives the order in which the blocks reach the output; `out` is the output file before. -/
def outputGroup (queue : List BlockOp) (ops : FloatOps F) (cv : Conv F (BitVec 64)) (zero : F) (rule : Rule)
    (idx : List Nat → List Nat) (sched : List Chunk → List Chunk) (P ns : Nat) (inc : ℚ) (msg : List Nat)
    (fs : List Input) (out : Disk) : Res Disk := do
  let max ← blockMax ns (paramMem rule)
  if max = 0 then .ub
  else do
    let out ← runBlocks queue ops cv zero rule ns idx fs (sched (allBlocks max P 0 fs)) out
    close ((List.range P).map fun r => writerOf ns inc msg (writesOf idx max P r 0 fs)) out

/-- A result for every element. Not code of /repo: loops over files and processes. -/
def collect {α β : Type} (f : α → Res β) : List α → Res (List β)
  | [] => .ok []
  | a :: l => do
    let b ← f a
    let bs ← collect f l
    .ok (b :: bs)

/-- What the set asks of an opened file, `Set.cc` 65-79; `code` numbers the intervals (see `FileIn`). -/
def fileIn (code : ℚ → Int) (i : Info) : FileIn := ⟨i.ns, code i.inc, i.nt⟩

/-- The files of a group with what their readers know, in the order of adding. `Set.cc` 78-80. -/
def members (code : ℚ → Int) (k : Key) (ds : List (Disk × Info)) : List (Disk × Info) :=
  ds.filter fun x => (fileIn code x.2).key = k

/-- The inputs of a group: `sts` is the content of `fmap` on each process. `Set.cc` 209-211; the number format 1 is IBM,
`ReadSEGY.cc` 186. -/
def inputsOf (sts : List (List Group)) (k : Key) (l : List (Disk × Info)) : List Input :=
  l.zipIdx.map fun x => ⟨x.1.1, decide (x.1.2.format = 1#16),
    fun r => ((descsOf k (sts.getD r [])).getD x.2 default).ilst,
    fun r => ((descsOf k (sts.getD r [])).getD x.2 default).olst⟩

/-- `Set set(piol, pattern); …; set.text(msg); set.output(prefix)` with the operations `queue` on single traces between, for the
files `ds` that match, down to the output of the group with key `k`: `Set.cc` 34-56 (the rule), 65-110, 171-268, 437-499 and
501-516. -/
def processSet (queue : List BlockOp) (ops : FloatOps F) (cv : Conv F (BitVec 64)) (zero : F) (idx : List Nat → List Nat)
    (sched : List Chunk → List Chunk) (P : Nat) (code : ℚ → Int) (msg : List Nat) (ds : List Disk) (k : Key) (out : Disk) :
    Res Disk := do
  let infos ← collect openRead ds
  let sts ← collect (fun r => addAll P r [] (infos.map (fileIn code))) (List.range P)
  let rule ← ctor [COPY] true false false
  match members code k (ds.zip infos) with
  | [] => .ok out
  | x :: l => outputGroup queue ops cv zero rule idx sched P x.2.ns x.2.inc msg (inputsOf sts k (x :: l)) out

/-- `Set set(piol, pattern); set.text(msg); set.output(prefix)`, `util/concatenate.cc` 101-107: no operations. -/
def concatenate (ops : FloatOps F) (cv : Conv F (BitVec 64)) (zero : F) (idx : List Nat → List Nat)
    (sched : List Chunk → List Chunk) (P : Nat) (code : ℚ → Int) (msg : List Nat) (ds : List Disk) (k : Key) (out : Disk) :
    Res Disk :=
  processSet [] ops cv zero idx sched P code msg ds k out

end Verif.Flow
