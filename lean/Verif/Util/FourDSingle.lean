import Verif.FP.Extended
import Verif.Util.FourDCoords

/-!
# 4D binning in single precision (`util/4d.hh` 15, `util/4dcore.cc` 85-89, 203-220)

`fourd_t` is `float`.  The search needs an order without not-a-number, so that it is run on the numbers that floats denote, with
one rounding for each operation; `dsrF` is the same calculation on floats with infinities and not-a-number.  `sqrtf` is the
function of the library.
-/

namespace Verif.FourDSingle
open Verif.FP32 Verif.Util Verif.FourDOut

/-- `hypot`, `util/4dcore.cc` 85-89. -/
def hypS (sqrtf : ℚ → ℚ) (x y : ℚ) : ℚ := sqrtf (rnd (rnd (x * x) + rnd (y * y)))

/-- The two sums of `dsr`, `util/4dcore.cc` 214-218: the source and the receiver of the first trace from the places
`(x1, y1)` and `(x2, y2)`. -/
def sumS (sqrtf : ℚ → ℚ) (a : Crd ℚ) (x1 y1 x2 y2 : ℚ) : ℚ :=
  rnd (hypS sqrtf (rnd (a.xs - x1)) (rnd (a.ys - y1)) + hypS sqrtf (rnd (a.xr - x2)) (rnd (a.yr - y2)))

/-- `dsr`, `util/4dcore.cc` 203-220. -/
def dsrS (sqrtf : ℚ → ℚ) (a b : Crd ℚ) : ℚ :=
  min (sumS sqrtf a b.xs b.ys b.xr b.yr) (sumS sqrtf a b.xr b.yr b.xs b.ys)

/-- `std::numeric_limits<fourd_t>::max()`, `util/4dcore.cc` 249 and 343, `util/4dio.hh` 80-82. -/
def maxS : ℚ := (2 ^ 24 - 1) * 2 ^ 104

/-- What the search works with: `util/4dcore.cc` 243-249 and 330-343 for the criterion, 286-295 and 473-477 for the bounds. -/
def geoS (sqrtf : ℚ → ℚ) (ixline : Bool) (dmax : ℚ) : Geo ℚ (Crd ℚ) where
  xs := Crd.xs
  tn := Crd.tn
  crit a b := if !ixline || (decide (a.il = b.il) && decide (a.xl = b.xl)) then dsrS sqrtf a b else maxS
  lo x := rnd (x - dmax)
  hi x := rnd (x + dmax)
  dmax := dmax
  big := maxS

/-! ### With infinities and not-a-number -/

/-- The difference of two floats. Not code of /repo: IEEE-754. -/
def subF : F32 → F32 → F32
  | a, .num b => a + .num (-b)
  | a, .inf s => a + .inf (!s)
  | _, .nan => .nan

/-- `a < b` on floats. Not code of /repo: IEEE-754. -/
def ltF : F32 → F32 → Bool
  | .num a, .num b => decide (a < b)
  | .num _, .inf s => !s
  | .inf s, .num _ => s
  | .inf s, .inf t => s && !t
  | .nan, _ => false
  | _, .nan => false

/-- `hypot`, `util/4dcore.cc` 85-89. -/
def hypF (sqrtf : ℚ → ℚ) (x y : F32) : F32 := F32.sqrt sqrtf (x * x + y * y)

/-- The two sums of `dsr`, `util/4dcore.cc` 214-218. -/
def sumF (sqrtf : ℚ → ℚ) (a : Crd F32) (x1 y1 x2 y2 : F32) : F32 :=
  hypF sqrtf (subF a.xs x1) (subF a.ys y1) + hypF sqrtf (subF a.xr x2) (subF a.yr y2)

/-- `dsr`, `util/4dcore.cc` 203-220; `std::min` gives its second argument if that is less. -/
def dsrF (sqrtf : ℚ → ℚ) (a b : Crd F32) : F32 :=
  let forward := sumF sqrtf a b.xs b.ys b.xr b.yr
  let reverse := sumF sqrtf a b.xr b.yr b.xs b.ys
  if ltF reverse forward then reverse else forward

/-- The coordinates as floats. Not code of /repo. -/
def floats (c : Crd ℚ) : Crd F32 := ⟨.num c.xs, .num c.ys, .num c.xr, .num c.yr, c.il, c.xl, c.tn⟩

end Verif.FourDSingle
