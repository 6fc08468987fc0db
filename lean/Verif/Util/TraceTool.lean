import Verif.Util.SwapTool
import Verif.Util.MinMaxMain

/-!
# The program that shows one trace (`util/traceanalysis.cc`)
-/

namespace Verif.TraceTool
open Verif.Rules Verif.Params Verif.Files Verif.Options Verif.Flow Verif.Scalar
open Verif.CCreate (dconv iconv)
open Verif.ConcatTool (World)
open Verif.Life (Name)

/-- The variables set by the options, `util/traceanalysis.cc` 30-31. -/
structure Opts where
  name : Name := []
  tn : Nat := 0
deriving DecidableEq

/-- The string of options, `util/traceanalysis.cc` 32. -/
def spec : Spec := fun c => if c = 'i' ∨ c = 't' then some true else none

/-- One option, `util/traceanalysis.cc` 35-46: unknown ones only give a message. -/
def option (o : Opts) (a : Char × Name) : Res Opts :=
  if a.1 = 'i' then .ok { o with name := a.2 }
  else if a.1 = 't' then do
    let n ← stoul a.2
    .ok { o with tn := n }
  else .ok o

/-- All options, `util/traceanalysis.cc` 30-47. -/
def parse (argv : List Name) : Res Opts := (getopt spec argv).foldlM option {}

/-- What the first process prints, `util/traceanalysis.cc` 54-86: six coordinates and the two line numbers, these as `size_t`. The
numbers of the items are those of `Meta.h` 86-101. -/
def shown (p : Param ℚ) : Res (List ℚ × List Nat) := do
  let xs ← collect (fun m => getPrm dconv 0 m p) [20, 21, 22, 23, 24, 25]
  let ls ← collect (fun m => getPrm iconv 0 m p) [26, 27]
  .ok (xs, ls.map BitVec.toNat)

/-- The file opened and one trace read, `util/traceanalysis.cc` 49-52; `Param.cc` 23-26 has the rule, `ReadInterface.cc` 18-24 the call. -/
def look (d : Disk) (tn : Nat) : Res (List ℚ × List Nat) := do
  let i ← openRead d
  let rule ← ctor [] true true false
  let q ← readTrace dbl iconv (decide (i.format = 1#16)) i.ns i.nt tn 1 none (some (mk 0 rule 1)) 0 d
  match q.2 with
  | none => .ub
  | some p => shown p

/-- `main`, `util/traceanalysis.cc` 26-89; all processes read the same. A name that is not there reads as an empty file. The status is
always zero. -/
def main (argv : List Name) (w : World) : Res (Int × List ℚ × List Nat) := do
  let o ← parse argv
  let r ← look (MinMaxMain.content w o.name) o.tn
  .ok (0, r)

end Verif.TraceTool
