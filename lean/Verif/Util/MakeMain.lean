import Verif.Util.GenTool
import Verif.Util.RepTool
import Verif.Util.FourDMain

/-!
# The programs that make files (`util/filemake.cc`, `util/makerep.cc`)

From the arguments and the files on disk to the files on disk.
-/

namespace Verif.MakeMain
open Verif.Endian Verif.Files Verif.Params Verif.Util Verif.Options
open Verif.ConcatTool (World)
open Verif.FourDMain (stod)
open Verif.Life (Name)

/-- What an output holds before: nothing if it is not there (`MPI_MODE_CREATE`, `src/DataMPIIO.cc` 228-229). -/
def before (w : World) (n : Name) : Disk := (w n).getD ⟨0, fun _ => 0#8⟩

/-- The variables set by the options, `util/filemake.cc` 182-188. -/
structure GenOpts where
  name : Name := []
  ns : Nat := 0
  nt : Nat := 0
  max : Nat := 0
  inc : ℚ := 0
  lob : Bool := false
  random : Bool := false
deriving DecidableEq

/-- The string of options, `util/filemake.cc` 203. -/
def genSpec : Spec := fun c =>
  if c = 's' ∨ c = 't' ∨ c = 'm' ∨ c = 'o' ∨ c = 'i' then some true
  else if c = 'l' ∨ c = 'r' then some false
  else none

/-- One option, `util/filemake.cc` 206-238: unknown ones only give a message. -/
def genOption (o : GenOpts) (a : Char × Name) : Res GenOpts :=
  if a.1 = 'o' then .ok { o with name := a.2 }
  else if a.1 = 's' then do
    let n ← stoul a.2
    .ok { o with ns := n }
  else if a.1 = 't' then do
    let n ← stoul a.2
    .ok { o with nt := n }
  else if a.1 = 'm' then do
    let n ← stoul a.2
    .ok { o with max := n }
  else if a.1 = 'i' then do
    let v ← stod a.2
    .ok { o with inc := v }
  else if a.1 = 'l' then .ok { o with lob := true }
  else if a.1 = 'r' then .ok { o with random := true }
  else .ok o

/-- All options, `util/filemake.cc` 203-240. -/
def genParse (argv : List Name) : Res GenOpts := (getopt genSpec argv).foldlM genOption {}

/-- `main`, `util/filemake.cc` 180-247, on `P` processes: the status and the files. Without arguments a line about the options is all
(190-194, `EXIT_FAILURE`). The assertion of 242 has three parts; the last two are in `Gen.filemake`. -/
def genMain (bits : Nat → BitVec 32) (sched : List Gen.Put → List Gen.Put) (P : Nat) (argv : List Name) (w : World) :
    Res (Int × World) :=
  if argv = [] then .ok (1, w)
  else do
    let o ← genParse argv
    if o.name = [] then .abort
    else do
      let out ← Gen.filemake bits sched o.lob o.random P o.max o.ns o.nt o.inc (before w o.name)
      .ok (0, Function.update w o.name (some out))

/-- The same in the default build (`CMakeLists.txt` 86-105), which has no assertions: `util/filemake.cc` 180-247. A file with an empty
name is not opened, which ends the program (145). -/
def genMainR (bits : Nat → BitVec 32) (sched : List Gen.Put → List Gen.Put) (P : Nat) (argv : List Name) (w : World) :
    Res (Int × World) :=
  if argv = [] then .ok (1, w)
  else do
    let o ← genParse argv
    if o.name = [] then .abort
    else do
      let out ← Gen.fileMake bits sched o.lob o.random P (mul64 o.max (2 ^ 20)) o.ns o.nt o.inc (before w o.name)
      .ok (0, Function.update w o.name (some out))

/-- The variables set by the options, `util/makerep.cc` 272-275. The version is kept as the word for it. -/
structure RepOpts where
  iname : Name := []
  oname : Name := []
  rep : Nat := 1
  version : Option String := none
deriving DecidableEq

/-- The string of options, `util/makerep.cc` 271. -/
def repSpec : Spec := fun c => if c = 'i' ∨ c = 'o' ∨ c = 'v' ∨ c = 'r' then some true else none

/-- One option, `util/makerep.cc` 278-299: unknown ones only give a message. The word for the version is looked up at once. -/
def repOption (o : RepOpts) (a : Char × Name) : Res RepOpts :=
  if a.1 = 'i' then .ok { o with iname := a.2 }
  else if a.1 = 'o' then .ok { o with oname := a.2 }
  else if a.1 = 'v' then do
    let _ ← getVersion (some (String.ofList a.2))
    .ok { o with version := some (String.ofList a.2) }
  else if a.1 = 'r' then do
    let n ← stoul a.2
    .ok { o with rep := n }
  else .ok o

/-- All options, `util/makerep.cc` 271-300. -/
def repParse (argv : List Name) : Res RepOpts := (getopt repSpec argv).foldlM repOption {}

/-- `main`, `util/makerep.cc` 269-342, on `N` processes: the files. The program ends if a name is empty (301; in the default build 309,
as such a file cannot be opened) or if the input is not there (309). The output is opened with `MPI_MODE_UNIQUE_OPEN`
(`src/DataMPIIO.cc` 229) while the input is open, which must not be done with the same file. -/
def repMain (sched : List Put → List Put) (junk : Byte) (N : Nat) (argv : List Name) (w : World) : Res World := do
  let o ← repParse argv
  if o.iname = [] ∨ o.oname = [] then .abort
  else match w o.iname with
    | none => .abort
    | some inp =>
      if o.oname = o.iname then .ub
      else do
        let out ← makeRep o.version o.rep N sched junk inp (before w o.oname)
        .ok (Function.update w o.oname (some out))

end Verif.MakeMain
