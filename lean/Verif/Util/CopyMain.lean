import Verif.Util.CopyTool
import Verif.Util.MinMaxMain

/-!
# The example that copies a file, from its arguments (`examples/creadwrite.c`)
-/

namespace Verif.CopyMain
open Verif.Endian Verif.Files Verif.Params Verif.Options
open Verif.ConcatTool (World)
open Verif.Life (Name)

/-- The string of options, `examples/creadwrite.c` 154. -/
def copySpec : Spec := fun c =>
  if c = 'i' ∨ c = 'o' ∨ c = 'm' then some true else if c = 'p' ∨ c = 't' then some false else none

/-- `sscanf` with `%zu`, called in `examples/creadwrite.c` 188: blanks, a sign, digits; the rest is passed over. `none` if there are no
digits. A number of more than 64 bits becomes the largest, a negative one is taken modulo 2^64. Not code of /repo: the GNU C
library. -/
def scanSize (s : Name) : Option Nat :=
  let s := s.dropWhile isSpace
  let neg : Bool := s.head? = some '-'
  let s := if s.head? = some '-' ∨ s.head? = some '+' then s.tail else s
  let ds := s.takeWhile Char.isDigit
  if ds = [] then none
  else
    let v := Nat.ofDigitChars 10 ds 0
    if 2 ^ 64 ≤ v then some (2 ^ 64 - 1)
    else if neg then some ((2 ^ 64 - v) % 2 ^ 64)
    else some v

/-- What `getopt` gives back and `optarg`, a null pointer for options without a value and unknown ones, `examples/creadwrite.c`
164-165. -/
def seen (argv : List Name) : List (Char × Option String) :=
  (getopt copySpec argv).map fun a => (a.1, if copySpec a.1 = some true then some (String.ofList a.2) else none)

/-- `main`, `examples/creadwrite.c` 146-232, on `P` processes: the status and the files. The options are looked at in
`CCopy.options` (lines 164-215); `assert` is in line 216; without an input `isErr` in line 104 ends the program. The output is opened
with `MPI_MODE_UNIQUE_OPEN` (`src/DataMPIIO.cc` 229) while the input is open, which must not be done with the same file. -/
def copyMain {F : Type} (N : CCopy.Num F) (junk : Nat → Byte) (sched : List (Nat × Nat) → List (Nat × Nat)) (P : Nat)
    (argv : List Name) (w : World) : Res (Int × World) := do
  let c ← CCopy.options (fun s => scanSize s.toList) .start (seen argv)
  match c with
  | none => .ok (-1, w)
  | some c =>
    match c.iname, c.oname with
    | some a, some b => do
      let d := MinMaxMain.content w a.toList
      let _ ← openRead d
      if (w a.toList).isNone then .abort
      else if b.toList = a.toList then .ub
      else do
        let out ← CCopy.readWriteFile N junk sched P c.memmax c.mods d (MinMaxMain.content w b.toList)
        .ok (0, Function.update w b.toList (some out))
    | _, _ => .abort

end Verif.CopyMain
