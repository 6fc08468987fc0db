import Verif.Basic

/-!
# Reading a 3D model by inline and crossline
-/

namespace Verif.Util

/-- `Model3dInterface::CoordinateParameters`, `include/ExSeisDat/PIOL/Model3dInterface.hh` 22-46. `Integer` is a 64-bit
number; values are taken to stay in its range. -/
structure Coord where
  start : Int
  count : Int
  increment : Int
  deriving Repr, DecidableEq

/-- `ReadSEGYModel::ReadSEGYModel`, `src/ReadSEGYModel.cc` 21-58: the parameters of inline and crossline from the headers
(inline, crossline) of the first, second and last trace of `nt`. Divisions truncate; the one of 47 is unsigned (a negative
count is taken modulo `2^64`); division by zero is undefined. A file of less than two traces makes the list of 28 leave
the file (`abort`). -/
def modelCoords (nt : Nat) (hdr : Nat → Int × Int) : Res (Coord × Coord) :=
  if nt < 2 then .abort
  else
    let ilStart := (hdr 0).1
    let xlStart := (hdr 0).2
    let ilIncrement := (hdr 1).1 - ilStart
    let ilCount := if ilIncrement ≠ 0 then ((hdr (nt - 1)).1 - ilStart).tdiv ilIncrement else 0
    let xlCount : Int := (nt / (if ilCount ≠ 0 then (ilCount % 2 ^ 64).toNat else 1) : Nat)
    if xlCount = 0 then .ub
    else
      let xlIncrement := ((hdr (nt - 1)).2 - xlStart).tdiv xlCount
      let ilIncrement := if ilIncrement ≠ 0 then ilIncrement else 1
      let xlIncrement := if xlIncrement ≠ 0 then xlIncrement else 1
      .ok (⟨ilStart, ilCount, ilIncrement⟩, ⟨xlStart, xlCount, xlIncrement⟩)

/-- The trace number read for a pair of inline and crossline, `src/ReadSEGYModel.cc` 73-74 and 92-93, converted to
`size_t`. -/
def modelOffset (c : Coord × Coord) (v : Int × Int) : Nat :=
  ((((v.1 - c.1.start).tdiv c.1.increment) * c.2.count + (v.2 - c.2.start).tdiv c.2.increment) % 2 ^ 64).toNat

end Verif.Util
