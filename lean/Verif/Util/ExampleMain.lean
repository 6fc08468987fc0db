import Verif.Util.SwapTool
import Verif.Util.TurnTool
import Verif.Util.CreateTool
import Verif.Util.MinMaxMain

/-!
# The examples that make files, from their arguments

`examples/modprm.c`, `examples/example2.c`, `examples/example1.c` and `examples/example1.cc`.
-/

namespace Verif.ExampleMain
open Verif.Endian Verif.Files Verif.Params Verif.Options
open Verif.ConcatTool (World)
open Verif.Life (Name)

/-- The string of options, `examples/modprm.c` 112 and `examples/example2.c` 18. -/
def twoSpec : Spec := fun c => if c = 'i' ∨ c = 'o' then some true else none

/-- The string of options, `examples/example1.c` 23 and `examples/example1.cc` 23. -/
def oneSpec : Spec := fun c => if c = 'o' then some true else none

/-- What a pointer to a name is after the options: it is replaced each time, `examples/modprm.c` 122-139 and
`examples/example1.c` 30-35. `none` is a null pointer. -/
def nameOf (c : Char) (l : List (Char × Name)) : Option Name := ((l.filter fun a => a.1 = c).map Prod.snd).getLast?

/-- `main` of `examples/modprm.c` 106-179 and of `examples/example2.c` 17-101 around the work `prog` on an input and an output. The
lengths of the values are taken as in `MinMaxMain.measured`; `assert` ends the program without the two names (`modprm.c` 147,
`example2.c` 50); so does `isErr` if there is no input (`modprm.c` 152-153, `example2.c` 56-57). The output is opened with
`MPI_MODE_UNIQUE_OPEN` (`src/DataMPIIO.cc` 229) while the input is open, which must not be done with the same file. -/
def twoFiles (prog : Disk → Disk → Res Disk) (argv : List Name) (w : World) : Res World := do
  MinMaxMain.measured twoSpec (getopt twoSpec argv)
  match nameOf 'i' (getopt twoSpec argv), nameOf 'o' (getopt twoSpec argv) with
  | some i, some o => do
    let d := MinMaxMain.content w i
    let _ ← openRead d
    if (w i).isNone then .abort
    else if o = i then .ub
    else do
      let out ← prog d (MinMaxMain.content w o)
      .ok (Function.update w o (some out))
  | _, _ => .abort

/-- `main`, `examples/modprm.c` 106-179. -/
def modprmMain (sched : List (Nat × Nat) → List (Nat × Nat)) (P : Nat) (argv : List Name) (w : World) : Res World :=
  twoFiles (CSwap.modprm sched P) argv w

/-- `main`, `examples/example2.c` 17-101. -/
def example2Main (null0 : Bool) (junk : Nat → Byte) (sched : List Decomp.Dec → List Decomp.Dec) (P : Nat) (argv : List Name)
    (w : World) : Res World :=
  twoFiles (CTurn.example2 null0 junk sched P) argv w

/-- `main`, `examples/example1.c` 16-122; `assert` is in line 40. -/
def example1CMain (bits : Nat → BitVec 32) (sched : List Decomp.Dec → List Decomp.Dec) (P : Nat) (argv : List Name) (w : World) :
    Res World := do
  MinMaxMain.measured oneSpec (getopt oneSpec argv)
  match nameOf 'o' (getopt oneSpec argv) with
  | none => .abort
  | some o => do
    let out ← CCreate.example1C bits sched P (MinMaxMain.content w o)
    .ok (Function.update w o (some out))

/-- `main`, `examples/example1.cc` 21-82: the status and the files. An unknown option ends the program (lines 30-34); `assert` is in
line 36. -/
def example1CCMain (bits : Nat → BitVec 32) (sched : List (Decomp.Dec × Bool) → List (Decomp.Dec × Bool)) (P : Nat)
    (argv : List Name) (w : World) : Res (Int × World) :=
  let l := getopt oneSpec argv
  let name := (nameOf 'o' l).getD []
  if l.all fun a => a.1 = 'o' then
    if name = [] then .abort
    else do
      let out ← CCreate.example1CC bits sched P (MinMaxMain.content w name)
      .ok (0, Function.update w name (some out))
  else .ok (-1, w)

end Verif.ExampleMain
