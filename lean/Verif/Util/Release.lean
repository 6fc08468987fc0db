import Verif.Util.DistVec
import Verif.Util.Sglobal
import Verif.Flow.SortMain
import Verif.Signal.Loop

/-!
# Decompositions, the distributed vector and the programs in the default build

As in `Signal/Release.lean`: the build type is `Release` unless another one is given (`CMakeLists.txt` 86-105), and the
assertions are not in the program.
-/

namespace Verif.Release
open Verif.Decomp Verif.Util

/-- `block_decomposition`, `src/utils/decomposition/block_decomposition.cc` 21-85, without the assertion of 24: the divisions of
26 and 27 by zero are undefined. -/
def blockDecompositionR (rangeSize numRanks rank : Nat) : Res Dec :=
  if numRanks > 0 then
    let chunkSize := rangeSize / numRanks
    let remainder := rangeSize % numRanks
    let globalOffset := add64 (mul64 chunkSize rank) (min rank remainder)
    let extraPiece := if rank < remainder then 1 else 0
    .ok ⟨globalOffset, add64 chunkSize extraPiece⟩
  else .ub

/-- `block_decomposition_location`, `src/utils/decomposition/block_decomposition.cc` 95-130, without the assertions of 98 and 99. -/
def locationR (rangeSize numRanks globalIndex : Nat) : Res Loc :=
  if numRanks > 0 then
    let chunkSize := rangeSize / numRanks
    let remainder := rangeSize % numRanks
    if globalIndex < mul64 (add64 chunkSize 1) remainder then
      let rank := globalIndex / (add64 chunkSize 1)
      .ok ⟨rank, sub64 globalIndex (mul64 (add64 chunkSize 1) rank)⟩
    else
      let offsetGlobalIndex := sub64 globalIndex (mul64 (add64 chunkSize 1) remainder)
      if chunkSize = 0 then .ub
      else
        let rank := add64 (offsetGlobalIndex / chunkSize) remainder
        .ok ⟨rank, sub64 (sub64 globalIndex (mul64 chunkSize rank)) remainder⟩
  else .ub

variable {T : Type}

/-- `set`, `include/ExSeisDat/utils/mpi/MPI_Distributed_vector.hh` 101-133, without the assertions of 115 and 118. A process that
does not exist is an erroneous argument of MPI. -/
def setR (v : DistVec T) (_rank i : Nat) (val : T) : Res (DistVec T) :=
  if i > v.globalSize then .ok v
  else do
    let loc ← locationR v.globalSize v.numRanks i
    if ¬ loc.rank < v.numRanks then .ub
    else if ¬ v.inWindow loc.rank loc.localIndex then .ub
    else .ok { v with data := fun r j => if r = loc.rank ∧ j = loc.localIndex then val else v.data r j }

/-- `get`, `include/ExSeisDat/utils/mpi/MPI_Distributed_vector.hh` 135-169, without the assertions of 148 and 151. -/
def getR (v : DistVec T) (dflt : T) (_rank i : Nat) : Res T :=
  if i > v.globalSize then .ok dflt
  else do
    let loc ← locationR v.globalSize v.numRanks i
    if ¬ loc.rank < v.numRanks then .ub
    else if ¬ v.inWindow loc.rank loc.localIndex then .ub
    else .ok (v.data loc.rank loc.localIndex)

/-- `blockDecomp`, `util/sglobal.cc` 34-75, without the assertion of 45. -/
def blockDecompR (sz bsz numRank rank off : Nat) : Res Dec :=
  if bsz = 0 then .ub
  else do
    let rstart := sub64 bsz (off % bsz)
    let rend := add64 off sz % bsz
    let inner := sub64 (sub64 sz rstart) rend
    let bcnt := add64 (inner / bsz) 2
    let d ← blockDecompositionR bcnt numRank rank
    let go := mul64 d.globalOffset bsz
    let ls := mul64 d.localSize bsz
    if ls = 0 then .ok ⟨sz, 0⟩
    else
      let ls' := if rank = 0 then sub64 ls (sub64 bsz rstart) else ls
      let go' := if rank = 0 then go else sub64 go (sub64 bsz rstart)
      let ls'' := if ls' ≠ 0 ∧ add64 go' ls' > sz then sub64 ls' (sub64 bsz rend) else ls'
      .ok ⟨go', ls''⟩

/-- `lobdecompose`, `util/sglobal.cc` 8-32, without the assertion of 22. -/
def lobdecomposeR (sz numRank rank : Nat) : Res (Nat × Nat × Nat) :=
  let nts := lobShares sz numRank
  match nts.max? with
  | none => .ub
  | some biggest =>
    match nts[rank]? with
    | none => .ub
    | some lnt => .ok (if rank = 0 then 0 else accumulate32 (nts.take rank), lnt, biggest)

/-- The corners of `Set::temporalFilter`, `src/Flow/Set.cc` 750-771, as `temporalFilter` takes them (`src/temporalfilter.cc` 498 and
502); `src/Flow/Set.cc` 759 asserts. -/
def setCorners {V : Type} (corners : List V) : Res (V × V) :=
  if corners.length ≠ 2 then .abort
  else do
    let b ← Verif.Signal.readAt corners 1
    let a ← Verif.Signal.readAt corners 0
    .ok (a, b)

/-- The same without the assertion of `src/Flow/Set.cc` 759. -/
def setCornersR {V : Type} (corners : List V) : Res (V × V) := do
  let b ← Verif.Signal.readAt corners 1
  let a ← Verif.Signal.readAt corners 0
  .ok (a, b)

section
open Verif.Files Verif.Params Verif.Rules Verif.Flow Verif.FP Verif.Sort Verif.ConcatTool
open Verif.Life (Name isSegy defaultMsg)
open Verif.SortMain (sortParse verifyParse writeGroups)

variable {F : Type}

/-- `main`, `util/concatenate.cc` 60-110, without the assertion of 99. An empty pattern has no matches. -/
def concatMainR (ops : FloatOps F) (cv : Conv F (BitVec 64)) (zero : F) (idx : List Nat → List Nat)
    (sched : List Chunk → List Chunk) (P : Nat) (code : ℚ → Int) (glob : Name → List Name) (answer : Option Char)
    (argv : List Name) (w : World) : Res World :=
  let o := parse argv
  if glob o.pattern = [] then .abort
  else do
    let ins := (glob o.pattern).filter isSegy
    let ds ← openAll w ins
    let infos ← collect openRead ds
    if o.prompt ∧ answer ≠ some 'y' then .ok w
    else do
      let w ← writeAll ops cv zero idx sched P code o.outprefix (o.msg.map Char.toNat) ins ds infos (kinds infos) w
      writeAll ops cv zero idx sched P code o.outprefix (o.msg.map Char.toNat) ins ds infos (kinds infos) w

/-- `main`, `util/sort.cc` 14-51, without the assertion of 44. -/
def sortMainR (o : OffFn) (srt : (Rec → Rec → Bool) → List Rec → List Rec) (srtp : List (Nat × Nat) → List (Nat × Nat)) (dflt : Rec)
    (fuel : Nat) (idx : List Nat → List Nat) (sched : List Chunk → List Chunk) (P : Nat) (code : ℚ → Int) (glob : Name → List Name)
    (argv : List Name) (w : World) : Res World := do
  let opts ← sortParse argv
  if glob opts.name1 = [] then .abort
  else do
    let ins := (glob opts.name1).filter isSegy
    let ds ← openAll w ins
    let infos ← collect openRead ds
    if infos = [] then .ub
    else writeGroups (fun k out => sortSet (srt fun a b => getComp o opts.type a.tr b.tr) srtp dflt fuel idx sched P code
      (defaultMsg.map Char.toNat) ds (k.1, code k.2) out) opts.name2 ins infos (kinds infos) w

/-- `main`, `util/verifysort.cc` 18-59, without the assertion of 43. No file has an empty name. -/
def verifyMainR (o : OffFn) (P : Nat) (argv : List Name) (w : World) : Res (List Bool) := do
  let opts ← verifyParse argv
  collect (fun r => verifySort o opts.type P r ((w opts.name1).getD ⟨0, fun _ => 0#8⟩)) (List.range P)

end

end Verif.Release
