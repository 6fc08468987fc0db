import Verif.Util.FourDSingle
import Verif.Util.Options
import Verif.Flow.ConcatTool

/-!
# The program for 4D binning (`util/fourdbin.cc`)

From the arguments and the files on disk to the files on disk. Different names are taken to be different files.
-/

namespace Verif.FourDMain
open Verif.Endian Verif.Files Verif.Params Verif.Flow Verif.Scalar Verif.Util Verif.Options Verif.FourDOut Verif.FourDSingle
open Verif.ConcatTool (World)
open Verif.Life (Name)

/-- The number `std::stod` reads in `util/fourdbin.cc` 92: blanks, a sign, digits with a point, an exponent; the rest is passed over.
Hexadecimal numbers and the words for infinity and not-a-number, which it takes too, are not modelled. Not code of /repo: the C++
library. -/
def number (s : Name) : Option ℚ :=
  let s := s.dropWhile isSpace
  let neg : Bool := s.head? = some '-'
  let s := if s.head? = some '-' ∨ s.head? = some '+' then s.tail else s
  let ip := s.takeWhile Char.isDigit
  let s := s.dropWhile Char.isDigit
  let fp := if s.head? = some '.' then s.tail.takeWhile Char.isDigit else []
  let s := if s.head? = some '.' then s.tail.dropWhile Char.isDigit else s
  if ip = [] ∧ fp = [] then none
  else
    let e := if s.head? = some 'e' ∨ s.head? = some 'E' then s.tail else []
    let eneg : Bool := e.head? = some '-'
    let e := if e.head? = some '-' ∨ e.head? = some '+' then e.tail else e
    let k : ℤ := Nat.ofDigitChars 10 (e.takeWhile Char.isDigit) 0
    let v : ℚ := Nat.ofDigitChars 10 (ip ++ fp) 0 * 10 ^ ((if eneg then -k else k) - fp.length)
    some (if neg then -v else v)

/-- `std::stod`, called in `util/fourdbin.cc` 92: the program ends with an exception if there is no number, if it is too large for a
double, or if it is too small for one to hold it well. Not code of /repo: the C++ library. -/
def stod (s : Name) : Res ℚ :=
  match number s with
  | none => .abort
  | some v =>
    if 2 ^ 1024 ≤ |FP.rnd v| ∨ (|v| < 2 ^ (-1022 : ℤ) ∧ FP.rnd v ≠ v) then .abort
    else .ok (FP.rnd v)

/-- The limit, `util/fourdbin.cc` 92: a double made a float (`fourd_t`, `util/4d.hh` 15), which is undefined if it is too large for
one. -/
def limit (s : Name) : Res ℚ := do
  let v ← stod s
  if maxS < |v| then .ub
  else .ok (FP32.rnd v)

/-- The variables set by the options, `util/fourdbin.cc` 56-61 with `util/4d.hh` 19-28. -/
structure Opts where
  name1 : Name := []
  name2 : Name := []
  name3 : Name := []
  name4 : Name := []
  dsrmax : ℚ := 1
  verbose : Bool := false
  printDsr : Bool := true
  ixline : Bool := false
deriving DecidableEq

/-- The string of options, `util/fourdbin.cc` 71. -/
def spec : Spec := fun c =>
  if c = 'a' ∨ c = 'b' ∨ c = 'c' ∨ c = 'd' ∨ c = 't' then some true
  else if c = 'v' ∨ c = 'p' ∨ c = 'x' then some false
  else none

/-- One option, `util/fourdbin.cc` 74-111: unknown ones only give a message. -/
def option (o : Opts) (a : Char × Name) : Res Opts :=
  if a.1 = 'a' then .ok { o with name1 := a.2 }
  else if a.1 = 'b' then .ok { o with name2 := a.2 }
  else if a.1 = 'c' then .ok { o with name3 := a.2 }
  else if a.1 = 'd' then .ok { o with name4 := a.2 }
  else if a.1 = 't' then do
    let v ← limit a.2
    .ok { o with dsrmax := v }
  else if a.1 = 'v' then .ok { o with verbose := true }
  else if a.1 = 'p' then .ok { o with printDsr := false }
  else if a.1 = 'x' then .ok { o with ixline := true }
  else .ok o

/-- All options, `util/fourdbin.cc` 71-112. -/
def parse (argv : List Name) : Res Opts := (getopt spec argv).foldlM option {}

/-- The matched traces of all processes, `util/fourdbin.cc` 125-143: number in the first file, number in the second file and
criterion. -/
def search (sqrtf : ℚ → ℚ) (o : Opts) (c1s c2s : List (List (Crd ℚ))) : Res (List (List (Nat × Nat × ℚ))) :=
  collect (fun r => do
    let c1 := c1s.getD r []
    let st ← calc4DBin (geoS sqrtf o.ixline o.dsrmax) r c1 c2s
    .ok (matched (geoS sqrtf o.ixline o.dsrmax) c1 st)) (List.range c1s.length)

/-- A `size_t` in memory (little-endian), `util/fourdbin.cc` 149-151. -/
def le64 (n : Nat) : List Byte := (List.range 8).map fun i => BitVec.ofNat 8 (n / 256 ^ i)

/-- A float in memory, `util/fourdbin.cc` 152. -/
def le32 (b : BitVec 32) : List Byte := (List.range 4).map fun i => BitVec.ofNat 8 (b.toNat / 256 ^ i)

/-- What one process writes with `-v`, `util/fourdbin.cc` 148-152; `bits` gives the bits of a float. -/
def restartBytes (bits : ℚ → BitVec 32) (m : List (Nat × Nat × ℚ)) : List Byte :=
  le64 m.length ++ m.flatMap (fun q => le64 q.1) ++ m.flatMap (fun q => le64 q.2.1) ++ m.flatMap fun q => le32 (bits q.2.2)

/-- A file with these bytes. Not code of /repo: the file system. -/
def fileOf (l : List Byte) : Disk := ⟨l.length, fun x => l.getD x 0#8⟩

/-- The name of the file of process `r`, `util/fourdbin.cc` 146. -/
def restartName (r : Nat) : Name := "tmp/restart".toList ++ decimal r

/-- The files of `-v` from process `r` on, `util/fourdbin.cc` 145-154. The calls that write are in assertions: without these
(`asserts` is false, the default build) the files are only created. -/
def restarts (asserts : Bool) (bits : ℚ → BitVec 32) : Nat → List (List (Nat × Nat × ℚ)) → World → World
  | _, [], w => w
  | r, m :: ms, w =>
    restarts asserts bits (r + 1) ms
      (Function.update w (restartName r) (some (fileOf (if asserts then restartBytes bits m else []))))

/-- `util/fourdbin.cc` 145-154. `dir` says whether there is a directory `tmp` where files can be created; the result of `fopen` is not
checked. -/
def restart (asserts dir : Bool) (bits : ℚ → BitVec 32) (verbose : Bool) (ms : List (List (Nat × Nat × ℚ))) (w : World) : Res World :=
  if verbose then
    if dir then .ok (restarts asserts bits 0 ms w) else .ub
  else .ok w

/-- `outputNonMono` with the names of the files, `util/4dio.cc` 177-259. The program ends if one cannot be opened (196-198); an output
must not be open otherwise (`MPI_MODE_UNIQUE_OPEN`, `src/DataMPIIO.cc` 226-229). -/
def output (cvd : Conv ℚ ℚ) (idx : List Nat → List Nat) (sched : List (Put ℚ) → List (Put ℚ)) (printDsr : Bool)
    (dname sname : Name) (lists : List (List Nat × List ℚ)) (w : World) : Res World :=
  match w sname with
  | none => .abort
  | some d =>
    if dname = [] then .abort
    else if dname = sname then .ub
    else do
      let o ← outputNonMono dbl asInt cvd 0 idx sched printDsr d lists ((w dname).getD ⟨0, fun _ => 0#8⟩)
      .ok (Function.update w dname (some o))

/-- The coordinates of a file by name, `util/4dio.cc` 33-173: the program ends if it cannot be opened (38). -/
def coords (srt : List XRec → List XRec) (fuel : Nat) (idx : List Nat → List Nat) (dflt : Crd ℚ) (ixline : Bool) (P : Nat)
    (n : Name) (w : World) : Res (List (List (Crd ℚ))) :=
  match w n with
  | none => .abort
  | some d => getCoords FP32.rnd srt fuel idx dflt ixline P d

/-- `main` after the options, `util/fourdbin.cc` 113-164, on `P` processes. The parameters are those of `FourDOut.binning` and
`restart`. -/
def run (asserts dir : Bool) (bits : ℚ → BitVec 32) (sqrtf : ℚ → ℚ) (cvd : Conv ℚ ℚ) (srt : List XRec → List XRec) (fuel : Nat)
    (idx : List Nat → List Nat) (sched : List (Put ℚ) → List (Put ℚ)) (dflt : Crd ℚ) (P : Nat) (o : Opts) (w : World) :
    Res World :=
  if asserts ∧ (o.name1 = [] ∨ o.name2 = [] ∨ o.name3 = [] ∨ o.name4 = []) then .abort
  else do
    let c1s ← coords srt fuel idx dflt o.ixline P o.name1 w
    let c2s ← coords srt fuel idx dflt o.ixline P o.name2 w
    let ms ← search sqrtf o c1s c2s
    let w ← restart asserts dir bits o.verbose ms w
    let w ← output cvd idx sched o.printDsr o.name3 o.name1 (ms.map fun m => (m.map fun q => q.1, m.map fun q => q.2.2)) w
    output cvd idx sched o.printDsr o.name4 o.name2 (ms.map fun m => (m.map fun q => q.2.1, m.map fun q => q.2.2)) w

/-- `main`, `util/fourdbin.cc` 52-165. -/
def main (asserts dir : Bool) (bits : ℚ → BitVec 32) (sqrtf : ℚ → ℚ) (cvd : Conv ℚ ℚ) (srt : List XRec → List XRec) (fuel : Nat)
    (idx : List Nat → List Nat) (sched : List (Put ℚ) → List (Put ℚ)) (dflt : Crd ℚ) (P : Nat) (argv : List Name) (w : World) :
    Res World := do
  let o ← parse argv
  run asserts dir bits sqrtf cvd srt fuel idx sched dflt P o w

end Verif.FourDMain
