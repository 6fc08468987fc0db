import Verif.Flow.Output
import Verif.Flow.Life
import Verif.Util.Options

/-!
# The program that joins files (`util/concatenate.cc`)

From the arguments and the files on disk to the files on disk afterwards.
-/

namespace Verif.ConcatTool
open Verif.Files Verif.Params Verif.Rules Verif.Flow Verif.FP
open Verif.Life (Name isSegy)
open Verif.Options (Spec getopt)

/-! ### The options -/

/-- The variables set by the options, `util/concatenate.cc` 64-67. -/
structure Opts where
  pattern : Name := []
  outprefix : Name := []
  msg : Name := "Concatenated with ExSeisPIOL".toList
  prompt : Bool := false
deriving DecidableEq

/-- The letters `"i:o:m:p"`, `util/concatenate.cc` 68. -/
def spec : Spec := fun c => if c = 'i' ∨ c = 'o' ∨ c = 'm' then some true else if c = 'p' then some false else none

/-- One option, `util/concatenate.cc` 71-97: unknown ones only give a message. -/
def option (o : Opts) (a : Char × Name) : Opts :=
  if a.1 = 'i' then { o with pattern := a.2 }
  else if a.1 = 'o' then { o with outprefix := a.2 }
  else if a.1 = 'm' then { o with msg := a.2 }
  else if a.1 = 'p' then { o with prompt := true }
  else o

/-- All options, `util/concatenate.cc` 64-98. -/
def parse (argv : List Name) : Opts := (getopt spec argv).foldl option {}

/-! ### Names of the output -/

/-- Six digits. Not code of /repo: `std::to_string` of a double. -/
def sixDigits (n : Nat) : List Char := List.replicate (6 - (decimal n).length) '0' ++ decimal n

/-- `std::to_string` of a finite double, as in `src/Flow/Set.cc` 190-191: six decimals, ties to even. Not code of /repo: the C++
library. -/
def fixed6 (x : ℚ) : List Char :=
  let n := (roundEven (|x| * 10 ^ 6)).toNat
  (if x < 0 then ['-'] else []) ++ decimal (n / 10 ^ 6) ++ '.' :: sixDigits (n % 10 ^ 6)

/-- Samples and interval. The keys of `fmap`, `src/Flow/Set.cc` 78-79. -/
abbrev Kind := Nat × ℚ

/-- Samples and interval of a file. `src/Flow/Set.cc` 78-79. -/
def kind (i : Info) : Kind := (i.ns, i.inc)

/-- A key put in its place in `fmap`, `src/Flow/Set.cc` 78-80: a `std::map` of pairs. -/
def insertKind (k : Kind) : List Kind → List Kind
  | [] => [k]
  | x :: l =>
    if x = k then x :: l
    else if k.1 < x.1 ∨ (k.1 = x.1 ∧ k.2 < x.2) then k :: x :: l
    else x :: insertKind k l

/-- The keys of `fmap` in order, for files added one after the other. `src/Flow/Set.cc` 65-85. -/
def kinds (infos : List Info) : List Kind := infos.foldl (fun l i => insertKind (kind i) l) []

/-- The name of the output of a group of `n` files, `src/Flow/Set.cc` 186-191. -/
def outName (outfix : Name) (k : Kind) (n : Nat) : Name :=
  if n = 1 then outfix ++ ".segy".toList
  else outfix ++ decimal k.1 ++ ['_'] ++ fixed6 k.2 ++ ".segy".toList

/-! ### The program -/

/-- The files on disk. Not code of /repo. -/
abbrev World := Name → Option Disk

variable {F : Type}

/-- The loop of `startSingle` over the groups, `src/Flow/Set.cc` 174-266. The output is opened with `MPI_MODE_UNIQUE_OPEN`
(`src/DataMPIIO.cc` 229), which must not be done with an input that is open. -/
def writeAll (ops : FloatOps F) (cv : Conv F (BitVec 64)) (zero : F) (idx : List Nat → List Nat)
    (sched : List Chunk → List Chunk) (P : Nat) (code : ℚ → Int) (outfix : Name) (msg : List Nat) (ins : List Name)
    (ds : List Disk) (infos : List Info) : List Kind → World → Res World
  | [], w => .ok w
  | k :: ks, w =>
    let n := outName outfix k (infos.filter fun i => kind i = k).length
    if n ∈ ins then .ub
    else do
      let out ← concatenate ops cv zero idx sched P code msg ds (k.1, code k.2) ((w n).getD ⟨0, fun _ => 0#8⟩)
      writeAll ops cv zero idx sched P code outfix msg ins ds infos ks (Function.update w n (some out))

/-- The files that a set opens, `src/Flow/Set.cc` 101-109: the program ends if one cannot be opened. -/
def openAll (w : World) (ins : List Name) : Res (List Disk) :=
  collect (fun n => match w n with | some d => .ok d | none => .abort) ins

/-- `main`, `util/concatenate.cc` 60-110. `glob` gives the names that match a pattern (`src/Flow/Set.cc` 90-95: the program ends
with an error if there are none), `answer` is the character that is read (`doPrompt`, 26-48; other than `y` ends the program
with status zero). The files are written when `output` is called and again when the set is destroyed (`src/Flow/Set.cc` 58-63). -/
def main (ops : FloatOps F) (cv : Conv F (BitVec 64)) (zero : F) (idx : List Nat → List Nat)
    (sched : List Chunk → List Chunk) (P : Nat) (code : ℚ → Int) (glob : Name → List Name) (answer : Option Char)
    (argv : List Name) (w : World) : Res World :=
  let o := parse argv
  if o.pattern = [] ∨ o.outprefix = [] then .abort
  else if glob o.pattern = [] then .abort
  else do
    let ins := (glob o.pattern).filter isSegy
    let ds ← openAll w ins
    let infos ← collect openRead ds
    if o.prompt ∧ answer ≠ some 'y' then .ok w
    else do
      let w ← writeAll ops cv zero idx sched P code o.outprefix (o.msg.map Char.toNat) ins ds infos (kinds infos) w
      writeAll ops cv zero idx sched P code o.outprefix (o.msg.map Char.toNat) ins ds infos (kinds infos) w

end Verif.ConcatTool
