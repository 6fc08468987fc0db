import Verif.Flow.ConcatTool
import Verif.Util.Options
import Verif.Util.MinMaxMain

/-!
# The programs that look at files (`util/assess.cc`, `util/cropen.c`)
-/

namespace Verif.Assess
open Verif.Endian Verif.Files Verif.Layout Verif.Options Verif.Flow
open Verif.ConcatTool (World)
open Verif.Life (Name isSegy)
open Verif.MinMaxMain (content)

/-- What is printed of a file, `util/assess.cc` 48-55: its name, numbers of samples and traces, interval and text (the last to the
other stream). -/
def describe (w : World) (n : Name) : Res (Name × Info) := do
  let i ← openRead (content w n)
  .ok (n, i)

/-- `main`, `util/assess.cc` 26-61, on one process: the status and what is printed; all processes print the same.  `glob` gives the names that
match a pattern (36-39; it fails if there are none).  A file that cannot be opened ends the program (51). -/
def assess (glob : Name → List Name) (argv : List Name) (w : World) : Res (Int × List (Name × Info)) :=
  match argv with
  | [] => .ok (-1, [])
  | p :: _ =>
    if glob p = [] then .ok (-1, [])
    else do
      let l ← collect (fun n => if (w n).isSome then describe w n else .abort) ((glob p).filter isSegy)
      .ok (0, l)

/-- The string of options, `util/cropen.c` 89. -/
def cropenSpec : Spec := fun c => if c = 'i' then some true else none

/-- A text as programs in C see it, `util/cropen.c` 25-32: up to the first null. -/
def cstr (t : List Nat) : List Nat := t.takeWhile (· ≠ 0)

/-- The comparison of two texts, `util/cropen.c` 25-32: as far as the shorter of them goes. -/
def sameText (s t : List Nat) : Bool :=
  let n := min (cstr s).length (cstr t).length
  (cstr s).take n == (cstr t).take n

/-- The comparisons for one file, `util/cropen.c` 65-69. (66 compares a length with itself.) -/
def same (a b : Info) : Bool := sameText a.text b.text && a.ns = b.ns && a.nt = b.nt && a.inc = b.inc

/-- `testManyFiles`, `util/cropen.c` 45-81: `first` is the file when it is opened before the loops, `disk i j` when it is opened as number `j` in
round `i`.  The status: -1 from `CTest_quit` (34-43).  In round `i` the comparisons are made a thousand times with file
`i`, whatever `j` is (64-70). -/
def testManyFiles (first : Disk) (disk : Nat → Nat → Disk) : Res Int := do
  let a ← openRead first
  let opened ← collect (fun i => collect (fun j => openRead (disk i j)) (List.range 1000)) (List.range 10)
  let bad := (List.range 10).any fun i => (List.range 1000).any fun _ =>
    match opened[i]? with
    | some fs => match fs[i]? with
      | some b => !same a b
      | none => true
    | none => true
  .ok (if bad then -1 else 0)

/-- `main`, `util/cropen.c` 83-116: `w i j` are the files when file `j` of round `i` is opened. The assertion of 106 is for the name.  Files are opened
with `MPI_MODE_UNIQUE_OPEN` (`src/DataMPIIO.cc` 226): a file that is open already must not be opened; `lax` if the MPI library lets it. -/
def cropen (lax : Bool) (argv : List Name) (first : World) (w : Nat → Nat → World) : Res Int :=
  let o := getopt cropenSpec argv
  if o.any fun a => a.1 ≠ 'i' then .ok (-1)
  else match o.getLast? with
    | none => .abort
    | some a =>
      if (first a.2).isSome ∧ ¬ lax then .ub
      else testManyFiles (content first a.2) (fun i j => content (w i j) a.2)

end Verif.Assess
