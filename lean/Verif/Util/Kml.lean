import Verif.FP.Double
import Verif.Scalar.Model
import Mathlib.Analysis.SpecialFunctions.Trigonometric.Basic
import Mathlib.Analysis.SpecialFunctions.Pow.Real

/-!
# Coordinates for maps (`util/segy2kml.cc`)
-/

namespace Verif.Util

open Verif.FP Verif.Scalar

/-- `std::to_string` of a `long long`, used in `util/segy2kml.cc` 47-49. -/
def longText (n : ℤ) : List Char := if n < 0 then '-' :: Nat.toDigits 10 n.natAbs else Nat.toDigits 10 n.natAbs

/-- `highPrecStr`, `util/segy2kml.cc` 45-50, of a finite double. Converting a value outside the range of `long long` is
undefined. -/
def highPrecStr (c : ℚ) : Res (List Char) :=
  if InI64 ⌊c⌋ then .ok (longText ⌊c⌋ ++ '.' :: longText ⌊rnd (rnd (c - ⌊c⌋) * 10000000000)⌋) else .ub

/-- The constant `eqRad`, `util/segy2kml.cc` 106. -/
noncomputable def eqRad : ℝ := 6378137
/-- The constant `polRad`, `util/segy2kml.cc` 107. -/
noncomputable def polRad : ℝ := 6356752
/-- The constant `k0`, `util/segy2kml.cc` 108. -/
noncomputable def k0 : ℝ := 0.9996
/-- `E`, `util/segy2kml.cc` 109-110. -/
noncomputable def ecc : ℝ := Real.sqrt (1 - polRad * polRad / (eqRad * eqRad))
/-- `ei`, `util/segy2kml.cc` 111-112. -/
noncomputable def ei : ℝ := (1 - Real.sqrt (1 - ecc * ecc)) / (1 + Real.sqrt (1 - ecc * ecc))

/-- `mu`, `util/segy2kml.cc` 114-118. -/
noncomputable def utmMu (northing : ℝ) : ℝ :=
  northing / k0 / (eqRad * (1 - ecc ^ 2 / 4 - 3 * ecc ^ 4 / 64 - 5 * ecc ^ 6 / 256))

/-- `phi`, `util/segy2kml.cc` 119-125. The quotients of two literals are integer divisions. -/
noncomputable def utmPhi (northing : ℝ) : ℝ :=
  let mu := utmMu northing
  mu + (3 * ei / 2 - 27 * ei ^ 3 / 32) * Real.sin (2 * mu)
    + (((21 / 16 : ℕ) : ℝ) * ei ^ 2 - ((55 / 32 : ℕ) : ℝ) * ei ^ 4) * Real.sin (4 * mu)
    + (((151 / 96 : ℕ) : ℝ) * ei ^ 3 - ((417 / 128 : ℕ) : ℝ) * ei ^ 5) * Real.sin (6 * mu)
    + (((1097 / 512 : ℕ) : ℝ) * ei ^ 4) * Real.sin (8 * mu)

/-- `d`, `util/segy2kml.cc` 113 and 128-129. -/
noncomputable def utmD (easting phi : ℝ) : ℝ :=
  (500000 - easting) / (k0 * eqRad / Real.sqrt (1 - (ecc * Real.sin phi) ^ 2))

/-- `c`, `util/segy2kml.cc` 126-127. -/
noncomputable def utmC (phi : ℝ) : ℝ := ecc * ecc / (1 - ecc * ecc) * Real.cos phi ^ 2

/-- `lat` of `utm2LatLong`, `util/segy2kml.cc` 102-103 and 130-141; `north` tells the hemisphere. The arithmetic is that of
the real numbers. -/
noncomputable def utmLat (easting northing : ℝ) (north : Bool) : ℝ :=
  let hemi : ℝ := if north then 1 else -1
  let phi := utmPhi northing
  let c := utmC phi
  let d := utmD easting phi
  180 * hemi / Real.pi *
    (phi - (1 - (ecc * Real.sin phi) ^ 2) * Real.tan phi / (1 - ecc * ecc) *
      (d * d / 2
        + (5 + 3 * Real.tan phi ^ 2 + 10 * c - 4 * c * c - 9 * (ecc * ecc / (1 - ecc * ecc))) * d ^ 4 / 24
        + (61 + 90 * Real.tan phi ^ 2 + 298 * Real.tan phi ^ 4 - 252 * (ecc * ecc / (1 - ecc * ecc)) - 3 * c * c)
            * d ^ 6 / 720))

/-- `lng` of `utm2LatLong`, `util/segy2kml.cc` 104 and 142-149; `zone` is the number of the zone. -/
noncomputable def utmLng (easting northing zone : ℝ) : ℝ :=
  let phi := utmPhi northing
  let c := utmC phi
  let d := utmD easting phi
  6 * zone - 183 -
    180 * (d + (1 + 2 * Real.tan phi ^ 2 + c) * d ^ 3 / 6
      + (5 - 2 * c + 28 * Real.tan phi ^ 2 - 3 * c * c + 24 * Real.tan phi ^ 4 + 8 * (ecc * ecc / (1 - ecc * ecc)))
          * d ^ 5 / 120)
      / (Real.cos phi * Real.pi)

/-- The corners of a file: `minmax[0]` to `minmax[3]` as filled by `calcMin` (`util/segy2kml.cc` 158-180) are the smallest
and largest x and the smallest and largest y of the sources. -/
structure Corners where
  xmin : ℝ
  xmax : ℝ
  ymin : ℝ
  ymax : ℝ

/-- What the loop of `main` does to the corners, `util/segy2kml.cc` 280-295: with a zone (hemisphere and number) and a
large x they are replaced by latitude (in the place of x) and longitude (in the place of y); whether the message about
invalid coordinates is printed. -/
noncomputable def kmlCorners (zone : Option (Bool × ℝ)) (m : Corners) : Corners × Bool :=
  match zone with
  | some (north, z) =>
    if 180 < m.xmin then
      (⟨utmLat m.xmin m.ymin north, utmLat m.xmax m.ymax north, utmLng m.xmin m.ymin z, utmLng m.xmax m.ymax z⟩, false)
    else (m, false)
  | none => (m, true)

/-- The two positions that `addLine` writes into `<coordinates>`, `util/segy2kml.cc` 68-71, before they are made text. -/
def kmlLine (m : Corners) : (ℝ × ℝ) × (ℝ × ℝ) := ((m.ymin, m.xmin), (m.ymax, m.xmax))

end Verif.Util
