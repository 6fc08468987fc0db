import Verif.Flow.SetExtremes
import Verif.Flow.ConcatTool
import Verif.Util.Options

/-!
# The programs that find smallest and largest coordinates (`util/minmax.cc`, `examples/minmax.cc`, `examples/minmax.c`)

From the arguments and the files on disk to the files on disk and what is printed.
-/

namespace Verif.MinMaxMain
open Verif.Rules Verif.Params Verif.Files Verif.Ops Verif.Flow Verif.Scalar Verif.Extremes Verif.ConcatTool Verif.Options
open Verif.Life (Name isSegy)

/-- The variables set by the options, `util/minmax.cc` 97-98. -/
structure Opts where
  iname : Name := []
  oname : Name := []
deriving DecidableEq

/-- The string of options, `util/minmax.cc` 100. -/
def spec : Spec := fun c => if c = 'i' ∨ c = 'o' then some true else none

/-- One option, `util/minmax.cc` 103-115: `none` if the program ends there. -/
def option (o : Opts) (a : Char × Name) : Option Opts :=
  if a.1 = 'i' then some { o with iname := a.2 }
  else if a.1 = 'o' then some { o with oname := a.2 }
  else none

/-- All options, `util/minmax.cc` 97-116. -/
def parse (argv : List Name) : Option Opts := (getopt spec argv).foldlM option {}

/-- What is found under a name. A file that cannot be opened has the size zero (`src/DataMPIIO.cc` 323-329 and 352-365). -/
def content (w : World) (n : Name) : Disk := (w n).getD ⟨0, fun _ => 0#8⟩

/-- `calcMin` with the names of the files, `util/minmax.cc` 22-85. The output is opened with `MPI_MODE_UNIQUE_OPEN`
(`src/DataMPIIO.cc` 229) while the input is open, which must not be done with the same file. -/
def calcFiles (P : Nat) (iname oname : Name) (w : World) : Res World := do
  let d := content w iname
  let i ← openRead d
  let o ← calcMin dbl asDouble asInt 0 P i.ns i.nt d
  if oname = iname ∧ (w iname).isSome then .ub
  else do
    let out ← writeRows dbl P i.inc o (content w oname)
    .ok (Function.update w oname (some out))

/-- `main`, `util/minmax.cc` 95-127, on `P` processes: the status and the files. -/
def main (P : Nat) (argv : List Name) (w : World) : Res (Int × World) :=
  match parse argv with
  | none => .ok (-1, w)
  | some o =>
    if o.iname = [] ∨ o.oname = [] then .ok (-1, w)
    else do
      let w' ← calcFiles P o.iname o.oname w
      .ok (0, w')

/-! ### The examples -/

/-- The string of options, `examples/minmax.cc` 24 and `examples/minmax.c` 21. -/
def exSpec : Spec := fun c => if c = 'i' then some true else none

/-- The name that is left after the options, `examples/minmax.cc` 25-34: unknown ones only give a message. -/
def exName (l : List (Char × Name)) : Name := ((l.filter fun a => a.1 = 'i').map Prod.snd).getLast?.getD []

/-- The twelve extremes over the files of a set, `examples/minmax.cc` 39-42 and `examples/minmax.c` 42-45. `rule` is the rule of the
set, as it is left by the call before (`src/Flow/Set.cc` 742-747). -/
def setExtremes12 (P : Nat) (rule : Rule) (ds : List Disk) : Res (List (Elem ℚ)) := do
  let s ← getMinMaxMeta P 20 21 rule ds
  let r ← getMinMaxMeta P 22 23 s.2 ds
  let c ← getMinMaxMeta P 24 25 r.2 ds
  .ok (s.1 ++ r.1 ++ c.1)

/-- A set made from a pattern and its extremes, `examples/minmax.cc` 37-42, `examples/minmax.c` 40-45. The rule is that of
`include/ExSeisDat/Flow/Set.hh` 177-179. `glob` gives the names that match a pattern (`src/Flow/Set.cc` 90-95: the program ends if
there are none); those that end like the name of a SEG-Y file are opened (97-107). -/
def exRun (P : Nat) (glob : Name → List Name) (name : Name) (w : World) : Res (List (Elem ℚ)) :=
  if glob name = [] then .abort
  else do
    let ds ← openAll w ((glob name).filter isSegy)
    let rule ← ctor [COPY] true false false
    setExtremes12 P rule ds

/-- `main`, `examples/minmax.cc` 20-60: the numbers the first process prints. -/
def exMain (P : Nat) (glob : Name → List Name) (argv : List Name) (w : World) : Res (List (Elem ℚ)) :=
  let name := exName (getopt exSpec argv)
  if name = [] then .abort else exRun P glob name w

/-- The options as programs in C look at them, `examples/minmax.c` 23-37 (also `examples/creadwrite.c` 164-168, `examples/example1.c`
25-29, `examples/example2.c` 21-25 and `examples/modprm.c` 116-120): the length of the value is taken first, of every option; without
a value `optarg` is a null pointer. -/
def measured (spec : Spec) : List (Char × Name) → Res Unit
  | [] => .ok ()
  | a :: l => if spec a.1 = some true then measured spec l else .ub

/-- `main`, `examples/minmax.c` 16-73. -/
def exMainC (P : Nat) (glob : Name → List Name) (argv : List Name) (w : World) : Res (List (Elem ℚ)) := do
  measured exSpec (getopt exSpec argv)
  if (getopt exSpec argv).all fun a => a.1 ≠ 'i' then .abort
  else exRun P glob (exName (getopt exSpec argv)) w

end Verif.MinMaxMain
