import Verif.Flow.SortTool
import Verif.Flow.ConcatTool
import Verif.Util.Options

/-!
# The programs that sort and check (`util/sort.cc`, `util/verifysort.cc`)

From the arguments and the files on disk to the files on disk and the verdicts.
-/

namespace Verif.SortMain
open Verif.Files Verif.Params Verif.Flow Verif.Sort Verif.ConcatTool Verif.Options
open Verif.Life (Name isSegy defaultMsg)

/-- The variables set by the options, `util/sort.cc` 19-22 and `util/verifysort.cc` 23-24. -/
structure Opts where
  name1 : Name := []
  name2 : Name := []
  type : SortType := 35
deriving DecidableEq

/-- The string of options, `util/sort.cc` 17. -/
def sortSpec : Spec := fun c => if c = 'i' ∨ c = 'o' ∨ c = 't' then some true else none

/-- One option, `util/sort.cc` 25-42: unknown ones only give a message. -/
def sortOption (o : Opts) (a : Char × Name) : Res Opts :=
  if a.1 = 'i' then .ok { o with name1 := a.2 }
  else if a.1 = 'o' then .ok { o with name2 := a.2 }
  else if a.1 = 't' then do
    let t ← stoul a.2
    .ok { o with type := t }
  else .ok o

/-- All options, `util/sort.cc` 17-42. -/
def sortParse (argv : List Name) : Res Opts := (getopt sortSpec argv).foldlM sortOption {}

/-- The loop over the groups, `src/Flow/Set.cc` 174-266: `run` gives the output of a group over what was in the file before. The
output is opened with `MPI_MODE_UNIQUE_OPEN` (`src/DataMPIIO.cc` 229), which must not be done with an input that is open. -/
def writeGroups (run : Kind → Disk → Res Disk) (outfix : Name) (ins : List Name) (infos : List Info) :
    List Kind → World → Res World
  | [], w => .ok w
  | k :: ks, w =>
    let n := outName outfix k (infos.filter fun i => kind i = k).length
    if n ∈ ins then .ub
    else do
      let out ← run k ((w n).getD ⟨0, fun _ => 0#8⟩)
      writeGroups run outfix ins infos ks (Function.update w n (some out))

/-- `main`, `util/sort.cc` 14-51. `srt` is `std::sort` of traces with a comparison. `glob` gives the names that match a pattern
(`src/Flow/Set.cc` 90-95: the program ends if there are none). Without a group `startSubset` takes the first of no elements
(`src/Flow/Set.cc` 447-449). Sorting and writing are done group by group here; the code sorts all groups before it writes the first,
which makes no difference as outputs are not inputs. -/
def sortMain (o : OffFn) (srt : (Rec → Rec → Bool) → List Rec → List Rec) (srtp : List (Nat × Nat) → List (Nat × Nat)) (dflt : Rec)
    (fuel : Nat) (idx : List Nat → List Nat) (sched : List Chunk → List Chunk) (P : Nat) (code : ℚ → Int) (glob : Name → List Name)
    (argv : List Name) (w : World) : Res World := do
  let opts ← sortParse argv
  if opts.name1 = [] ∨ opts.name2 = [] then .abort
  else if glob opts.name1 = [] then .abort
  else do
    let ins := (glob opts.name1).filter isSegy
    let ds ← openAll w ins
    let infos ← collect openRead ds
    if infos = [] then .ub
    else writeGroups (fun k out => sortSet (srt fun a b => getComp o opts.type a.tr b.tr) srtp dflt fuel idx sched P code
      (defaultMsg.map Char.toNat) ds (k.1, code k.2) out) opts.name2 ins infos (kinds infos) w

/-- The string of options, `util/verifysort.cc` 22. -/
def verifySpec : Spec := fun c => if c = 'i' ∨ c = 'o' ∨ c = 't' then some true else if c = 'd' then some false else none

/-- One option, `util/verifysort.cc` 27-41: `-o`, `-d` and unknown ones only give a message. -/
def verifyOption (o : Opts) (a : Char × Name) : Res Opts :=
  if a.1 = 'i' then .ok { o with name1 := a.2 }
  else if a.1 = 't' then do
    let t ← stoul a.2
    .ok { o with type := t }
  else .ok o

/-- All options, `util/verifysort.cc` 22-41. -/
def verifyParse (argv : List Name) : Res Opts := (getopt verifySpec argv).foldlM verifyOption {}

/-- `main`, `util/verifysort.cc` 18-59: what each process writes, `true` for `Success`; the status is zero in any case. A file that
cannot be opened is one without bytes (`src/DataMPIIO.cc` 323-329 and 352-365; `src/ReadSEGY.cc` 44-48): the error is only noted. -/
def verifyMain (o : OffFn) (P : Nat) (argv : List Name) (w : World) : Res (List Bool) := do
  let opts ← verifyParse argv
  if opts.name1 = [] then .abort
  else collect (fun r => verifySort o opts.type P r ((w opts.name1).getD ⟨0, fun _ => 0#8⟩)) (List.range P)

end Verif.SortMain
