import Verif.Util.Kml
import Verif.Util.MinMaxTool
import Verif.Flow.Life
import Mathlib.Data.List.Basic

/-!
# The program for maps (`util/segy2kml.cc`): from the options and the SEG-Y files to the text of the KML file

The arithmetic of `utm2LatLong` on doubles (`Util/Kml.lean` has it on real numbers) and `std::stof` are parameters.
-/

namespace Verif.KmlTool
open Verif.Util Verif.Extremes Verif.Files Verif.Params Verif.Ops Verif.Scalar Verif.Life Verif.Endian

/-- The characters of a literal, as a list. Not code of /repo. -/
syntax "chars% " str : term

open Lean in
macro_rules
  | `(chars% $s:str) => do
    let cs := (s.getString.toList.map Syntax.mkCharLit).toArray
    `([$cs,*])

/-! ### The text -/

/-- `initKML` before the name of the folder, `util/segy2kml.cc` 25-30. -/
def head1 : List Char := chars% "<?xml version=\"1.0\" encoding=\"UTF-8\"?>\n<kml xmlns=\"http://www.opengis.net/kml/2.2\"\n xmlns:gx=\"http://www.google.com/kml/ext/2.2\"\n xmlns:kml=\"http://www.opengis.net/kml/2.2\"\n xmlns:atom=\"http://www.w3.org/2005/Atom\">\n\n<Document>\n<Folder>\n<name>"

/-- `initKML` after the name of the folder, `util/segy2kml.cc` 31-37. -/
def head2 : List Char := chars% "</name>\n<Style id=\"pathstyle\">\n\t<LineStyle>\n\t\t<color>ff190cff</color>\n\t\t<width>2</width>\n\t</LineStyle>\n</Style>\n<Schema name=\"Intrepid\" id=\"Intrepid\">\n\t<SimpleField name=\"Name\" type=\"string\"></SimpleField>\n\t<SimpleField name=\"Description\" type=\"string\"></SimpleField>\n</Schema>\n\n"

/-- `addLine` before the name, `util/segy2kml.cc` 60-61. -/
def mark1 : List Char := chars% "<Placemark>\n\t<name>"

/-- `addLine` between the names, `util/segy2kml.cc` 62-66. -/
def mark2 : List Char := chars% "</name>\n\t<styleUrl>#pathstyle</styleUrl>\n\t<LineString>\n\t\t<ExtendedData>\n\t\t\t<SchemaData schemaUrl=\"#Intrepid\">\n\t\t\t\t<SimpleData name=\"Name\">"

/-- `addLine` from the second name to the coordinates, `util/segy2kml.cc` 67-68. -/
def mark3 : List Char := chars% "</SimpleData>\n\t\t\t</SchemaData>\n\t\t</ExtendedData>\n\t\t\t<tessellate>1</tessellate>\n\t\t<coordinates>\n\t\t\t"

/-- `addLine` between the two positions, `util/segy2kml.cc` 70. -/
def mark4 : List Char := chars% ",0\n\t\t\t"

/-- `addLine` after the coordinates, `util/segy2kml.cc` 71-72. -/
def mark5 : List Char := chars% ",0\n\t\t </coordinates>\n\t</LineString>\n</Placemark>\n"

/-- `closeKML`, `util/segy2kml.cc` 80. -/
def tail1 : List Char := chars% "</Folder>\n</Document>\n</kml>"

/-- The first four values of `minmax`, `util/segy2kml.cc` 272. -/
structure Box where
  xmin : ℚ
  xmax : ℚ
  ymin : ℚ
  ymax : ℚ

/-- `addLine`, `util/segy2kml.cc` 57-73. -/
def addLine (name : Name) (b : Box) : Res (List Char) := do
  let s2 ← highPrecStr b.ymin
  let s0 ← highPrecStr b.xmin
  let s3 ← highPrecStr b.ymax
  let s1 ← highPrecStr b.xmax
  .ok (mark1 ++ name ++ mark2 ++ name ++ mark3 ++ s2 ++ ',' :: s0 ++ mark4 ++ s3 ++ ',' :: s1 ++ mark5)

/-! ### The files -/

/-- What is found under a name. A file that cannot be opened has the size zero (`src/DataMPIIO.cc` 323-329 and 352-365): the
error is noted but the program never asks for errors. -/
def content (fs : Name → Option Disk) (n : Name) : Disk := (fs n).getD ⟨0, fun _ => 0#8⟩

/-- `calcMin`, `util/segy2kml.cc` 158-180, on all processes; the extremes of the receivers are found but not used. -/
def corners (cv : Conv ℚ ℚ) (cvt : Conv ℚ (BitVec 64)) (P : Nat) (d : Disk) : Res Box := do
  let i ← openRead d
  let ps ← readShares dbl cvt 0 P i.ns i.nt d (List.range P)
  let s ← metaMinMax dbl cv 0 20 21 ps
  let _ ← metaMinMax dbl cv 0 22 23 ps
  match s with
  | [e0, e1, e2, e3] => .ok ⟨e0.val, e1.val, e2.val, e3.val⟩
  | _ => .ub

/-- The body of the loop of `main` up to `addLine`, `util/segy2kml.cc` 282-289; `utm` gives latitude and longitude. -/
def converted (utm : ℚ → ℚ → Name → ℚ × ℚ) (zone : Name) (b : Box) : Box :=
  if 180 < b.xmin ∧ zone ≠ [] then
    ⟨(utm b.xmin b.ymin zone).1, (utm b.xmax b.ymax zone).1, (utm b.xmin b.ymin zone).2, (utm b.xmax b.ymax zone).2⟩
  else b

/-- The loop of `main` over the files, `util/segy2kml.cc` 277-296: the text added. -/
def placemarks (utm : ℚ → ℚ → Name → ℚ × ℚ) (cv : Conv ℚ ℚ) (cvt : Conv ℚ (BitVec 64)) (P : Nat) (fs : Name → Option Disk)
    (zone : Name) : List Name → Res (List Char)
  | [] => .ok []
  | n :: ns => do
    let b ← corners cv cvt P (content fs n)
    let s ← addLine n (converted utm zone b)
    let t ← placemarks utm cv cvt P fs zone ns
    .ok (s ++ t)

/-! ### The options -/

/-- The variables set by the options, `util/segy2kml.cc` 196-200. -/
structure Opts where
  inames : List Name := []
  oname : Name := []
  zone : Name := []
  folder : Name := chars% "SEG-Y"
  help : Bool := false

/-- One option as `getopt` gives it, with its argument, `util/segy2kml.cc` 203-228; others are passed over. -/
def option (o : Opts) (a : Char × Name) : Opts :=
  if a.1 = 'i' then { o with inames := o.inames ++ [a.2] }
  else if a.1 = 'o' then { o with oname := a.2 }
  else if a.1 = 'f' then { o with folder := a.2 }
  else if a.1 = 'z' then { o with zone := a.2 }
  else if a.1 = 'h' then { o with help := true }
  else o

/-- The condition on the zone, `util/segy2kml.cc` 248-258; `std::stof` throws if there is no number (`none`), which ends the
program. `std::toupper` is that of the C locale. -/
def badZone (stof : Name → Option ℚ) (z : Name) : Res Bool :=
  match z.getLast? with
  | none => .ok false
  | some c =>
    if c.toUpper ≠ 'N' ∧ c.toUpper ≠ 'S' then .ok true
    else match stof z with
      | none => .abort
      | some x => .ok (decide (x < 1) || decide (60 < x) || decide (x ≠ ⌊x⌋))

/-- The lines of a text, as `std::getline` gives them, `util/segy2kml.cc` 268-270. -/
def textLines : List Char → List Name
  | [] => []
  | c :: s =>
    if c = '\n' then [] :: textLines s
    else match textLines s with
      | [] => [[c]]
      | w :: ws => (c :: w) :: ws

/-- The names of the SEG-Y files, `util/segy2kml.cc` 264-271: if the first name given does not end in `Y` it is that of a list of
names. The last character of an empty name is undefined. -/
def files (fs : Name → Option Disk) (names : List Name) : Res (List Name) :=
  match names.head? with
  | none => .ub
  | some n =>
    match n.getLast? with
    | none => .ub
    | some c =>
      if c.toUpper ≠ 'Y' then
        .ok (textLines ((List.range (content fs n).size).map fun x => Char.ofNat ((content fs n).byte x).toNat))
      else .ok names

/-- `main`, `util/segy2kml.cc` 194-299: the text of the output, `none` if the program ends before with a message. Every process
opens and writes the output; all write this text. The output is not one of the inputs. -/
def main (stof : Name → Option ℚ) (utm : ℚ → ℚ → Name → ℚ × ℚ) (cv : Conv ℚ ℚ) (cvt : Conv ℚ (BitVec 64)) (P : Nat)
    (fs : Name → Option Disk) (args : List (Char × Name)) : Res (Option (List Char)) := do
  let o := args.foldl option {}
  if o.help then .ok none
  else if o.inames = [] ∨ o.oname = [] then .ok none
  else do
    let bad ← badZone stof o.zone
    if bad then .ok none
    else do
      let names ← files fs o.inames
      let t ← placemarks utm cv cvt P fs o.zone names
      .ok (some (head1 ++ o.folder ++ head2 ++ t ++ tail1))

end Verif.KmlTool
