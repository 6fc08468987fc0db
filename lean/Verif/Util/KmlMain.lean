import Verif.Util.KmlTool
import Verif.Util.MinMaxMain

/-!
# The program for maps from its arguments (`util/segy2kml.cc`)

From the arguments and the files on disk to the files on disk and the status.
-/

namespace Verif.KmlMain
open Verif.Endian Verif.Files Verif.Params Verif.Ops Verif.Options Verif.KmlTool
open Verif.ConcatTool (World)
open Verif.Life (Name)

/-- The string of options, `util/segy2kml.cc` 202. -/
def kmlSpec : Spec := fun c =>
  if c = 'i' ∨ c = 'o' ∨ c = 'f' ∨ c = 'z' then some true else if c = 'h' then some false else none

/-- A file with this text, written by `operator<<` in `util/segy2kml.cc` 25-37: one byte for each character. -/
def textDisk (t : List Char) : Disk := ⟨t.length, fun x => BitVec.ofNat 8 (t[x]?.getD ' ').toNat⟩

/-- `main`, `util/segy2kml.cc` 194-299, on `P` processes: the status and the files. The output is opened, and with it emptied, before
the inputs (`initKML`, lines 22-38 and 275); `mid` is what is found in it while it is being written, which depends on what
`std::ofstream` has passed on. The return in line 226 is never reached. -/
def kmlMain (stof : Name → Option ℚ) (utm : ℚ → ℚ → Name → ℚ × ℚ) (cv : Conv ℚ ℚ) (cvt : Conv ℚ (BitVec 64)) (mid : Disk) (P : Nat)
    (argv : List Name) (w : World) : Res (Int × World) := do
  let o := (getopt kmlSpec argv).foldl option {}
  if o.help then .ok (0, w)
  else if o.inames = [] ∨ o.oname = [] then .ok (-2, w)
  else do
    let bad ← badZone stof o.zone
    if bad then .ok (-1, w)
    else do
      let names ← files w o.inames
      let t ← placemarks utm cv cvt P (Function.update w o.oname (some mid)) o.zone names
      .ok (0, Function.update w o.oname (some (textDisk (head1 ++ o.folder ++ head2 ++ t ++ tail1))))

end Verif.KmlMain
