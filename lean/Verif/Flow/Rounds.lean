import Verif.Layout.Model
import Mathlib.Data.List.Sort

/-!
# Reading and writing a set in blocks (`Set::startSingle`, `src/Flow/Set.cc` 171-268)
-/

namespace Verif.Flow

open Verif.Layout

/-- A pointer argument of a read or write call: null, the address 1 that stands for "not wanted" (`PIOL_PARAM_NULL`,
`include/ExSeisDat/PIOL/Param.h` 28, and `TRACE_NULL`, `src/ReadInterface.cc` 15), or memory. -/
inductive Ptr where
  | null | unwanted | data
deriving DecidableEq, Repr

/-- The part of a record that the object layer transfers: samples, header, or both (`readDODF`, `readDOMD`, `readDO` and
the same for writing, `src/ObjectSEGY.cc`). Each makes collective calls of its own. (`ObjectSEGY.cc` 52-210.) -/
inductive Part where
  | samples | header | whole
deriving DecidableEq, Repr

/-- The choice in `readTraceT`, `src/ReadSEGY.cc` 150-172, and `writeTraceT`, `src/WriteSEGY.cc` 231-257. -/
def ioPart (trc prm : Ptr) : Part :=
  if prm = .unwanted then .samples else if trc = .unwanted then .header else .whole

/-- The number of traces in a block, `Set.cc` 203-207; `pm` is `rule->paramMem()`. -/
def blockMax (ns pm : Nat) : Res Nat :=
  let d := add64 (add64 (add64 40 (getDOSz ns)) (mul64 2 pm)) (mul64 2 (getDFSz ns))
  if d = 0 then .ub else .ok (2 ^ 30 / d)

/-- A collective call of one process: a read of the traces with the given numbers, or a write of traces (by their number
in the input) to output positions. `Set.cc` 219-265. -/
inductive Step where
  | read (p : Part) (idx : List Nat)
  | write (p : Part) (moves : List (Nat × Nat))
deriving DecidableEq, Repr

/-- One block, `Set.cc` 219-249: traces `i … i + n - 1` of the list of the process are read, put in the order of their
output positions (`idx` is `getSortIndex`, `src/sort.cc` 29-37) and written. The operations on the block are left out
(`Flow/Pipeline.lean`). -/
def blockSteps (idx : List Nat → List Nat) (ilst olst : List Nat) (i n : Nat) : List Step :=
  let is := (ilst.drop i).take n
  let os := (olst.drop i).take n
  [.read (ioPart .data .data) is,
    .write (ioPart .data .data) ((idx os).map fun j => (is.getD j 0, os.getD j 0))]

/-- The loop over blocks, `Set.cc` 218-250. (Lists have fewer than `2^63` elements, so `i + max` does not wrap.) -/
def blocksFrom (idx : List Nat → List Nat) (max : Nat) (ilst olst : List Nat) (i : Nat) : List Step :=
  if _ : i < ilst.length ∧ 0 < max then
    blockSteps idx ilst olst i (if i + max < ilst.length then max else ilst.length - i)
      ++ blocksFrom idx max ilst olst (i + max)
  else []
termination_by ilst.length - i

/-- All calls of a process for one file, `Set.cc` 209-265; `biggest` is the largest number of traces that a process has
of the file (214). The files of a group follow each other. -/
def fileSteps (idx : List Nat → List Nat) (max biggest : Nat) (ilst olst : List Nat) : Res (List Step) :=
  if max = 0 then .ub
  else
    let lnt := ilst.length
    let extra := sub64 (add64 (biggest / max) (if 0 < biggest % max then 1 else 0))
      (add64 (lnt / max) (if 0 < lnt % max then 1 else 0))
    .ok (blocksFrom idx max ilst olst 0
      ++ (List.replicate extra [Step.read (ioPart .null .null) [], .write (ioPart .null .null) []]).flatten)

end Verif.Flow
