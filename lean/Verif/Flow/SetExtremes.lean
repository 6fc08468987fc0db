import Verif.Util.MinMaxTool
import Verif.Flow.SortTool

/-!
# Smallest and largest items over the files of a set (`Set::getMinMax`, `src/Flow/Set.cc`)
-/

namespace Verif.Extremes
open Verif.Rules Verif.Params Verif.Files Verif.Ops Verif.Decomp Verif.Endian Verif.Scalar Verif.Flow

/-- What process `r` of `P` reads of a file: the traces of its list, which are those of its block. `Set.cc` 71-76 (the
list), 534-538 (the reading). -/
def setShare (P ns nt : Nat) (rule : Rule) (d : Disk) (r : Nat) : Res (Nat × Param ℚ) := do
  let dec ← blockDecomposition nt P r
  let l := List.range' dec.globalOffset dec.localSize
  let q ← readList dbl asInt false ns l none (some (mk 0 rule l.length)) 0 d
  match q.2 with
  | some p => .ok (l.length, p)
  | none => .ub

/-- The offset of every process, `Set.cc` 542: the number of traces of the processes before it (`comm->offset`, for a
communicator of all processes, see `Verif/Ops/Comm.lean`). -/
def numbered (o : Nat) : List (Nat × Param ℚ) → List (Nat × Nat × Param ℚ)
  | [] => []
  | x :: l => (o, x) :: numbered (add64 o x.1) l

/-- The items of the traces of one file on all processes, `Set.cc` 533-544 with the functions of 731-740. -/
def filePairs (P m1 m2 : Nat) (rule : Rule) (d : Disk) (i : Info) : Res (List (Nat × List (ℚ × ℚ))) := do
  let ps ← collect (setShare P i.ns i.nt rule d) (List.range P)
  shares dbl asDouble 0 m1 m2 (numbered 0 ps)

/-- `Set::getMinMax` of two items with the rule as it is, `Set.cc` 517-570 with the functions of 731-740, over files `ds`:
smallest and largest first item, smallest and largest second item. -/
def setExtremes (P m1 m2 : Nat) (rule : Rule) (ds : List Disk) : Res (List (Elem ℚ)) := do
  let parts ← collect (fun d => do
    let i ← openRead d
    filePairs P m1 m2 rule d i) ds
  let x := setMinMax Prod.fst Prod.snd parts
  let y := setMinMax Prod.snd Prod.fst parts
  .ok [x.1, x.2, y.1, y.2]

/-- An item that was added is removed again. `Set.cc` 742-747. -/
def rmAdded (added : Bool) (m : Nat) (r : Rule) : Res Rule := if added then rmRule r m else .ok r

/-- `Set::getMinMax` of two items, `Set.cc` 726-748: the result and the rule of the set afterwards. -/
def getMinMaxMeta (P m1 m2 : Nat) (rule : Rule) (ds : List Disk) : Res (List (Elem ℚ) × Rule) := do
  let a ← addRule rule m1
  let b ← addRule a.1 m2
  let e ← setExtremes P m1 m2 b.1 ds
  let r ← rmAdded a.2 m1 b.1
  let r ← rmAdded b.2 m2 r
  .ok (e, r)

end Verif.Extremes
