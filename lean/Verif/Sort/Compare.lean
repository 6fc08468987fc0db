import Verif.FP.Double

/-!
The comparison functions of the parallel sort (`/repo/src/sort.cc` lines 46-396).

A comparison sees two traces of a `Param` through `getPrm`; here it sees the two records of values that
`getPrm` returns. Coordinates are finite doubles, taken as rationals (a not-a-number coordinate is left out).
-/

namespace Verif.Sort

open Verif.FP

/-- The parameters of one trace that a sort looks at: source and receiver coordinates, inline, crossline,
the recorded offset and the local trace number (`include/ExSeisDat/PIOL/Meta.h`). Used in `sort.cc` 62-360. -/
structure Tr where
  sx : ℚ
  sy : ℚ
  rx : ℚ
  ry : ℚ
  il : ℤ
  xl : ℤ
  roff : ℤ
  ltn : ℤ
deriving DecidableEq

/-- The way the machine evaluates `off` on four doubles. Kept as a parameter of everything below, so the
results hold however the compiler contracts or reorders the expression. `sort.cc` 46-53. -/
abbrev OffFn := ℚ → ℚ → ℚ → ℚ → ℚ

/-- `off`, `src/sort.cc` 46-53, with one rounding for each operation. -/
def off : OffFn := fun sx sy rx ry =>
  rnd (rnd (rnd (sx - rx) * rnd (sx - rx)) + rnd (rnd (sy - ry) * rnd (sy - ry)))

/-- `getPrm<size_t>(i, PIOL_META_Offset, prm)` seen as the double it becomes in `CalcOff ? off(...) : ...`
(`src/sort.cc` 149-151): the signed value converted to an unsigned 64-bit one, then to a double. -/
def readOff (t : Tr) : ℚ := rnd ((t.roff % 2 ^ 64 : ℤ) : ℚ)

/-- `CalcOff ? off(sx, sy, rx, ry) : getPrm<size_t>(..)`, `src/sort.cc` 149-151, 157-159 and the same lines of
the other comparisons. -/
def offOf (o : OffFn) (co : Bool) (t : Tr) : ℚ := if co then o t.sx t.sy t.rx t.ry else readOff t

/-- `lessSrcRcv`, `src/sort.cc` 62-111. -/
def lessSrcRcv (a b : Tr) : Bool :=
  if a.sx < b.sx then true
  else if a.sx = b.sx then
    if a.sy < b.sy then true
    else if a.sy = b.sy then
      if a.rx < b.rx then true
      else if a.rx = b.rx then
        if a.ry < b.ry then true
        else if a.ry = b.ry then decide (a.ltn < b.ltn)
        else false
      else false
    else false
  else false

/-- `lessSrcOff<CalcOff>`, `src/sort.cc` 124-171. -/
def lessSrcOff (o : OffFn) (co : Bool) (a b : Tr) : Bool :=
  if a.sx < b.sx then true
  else if a.sx = b.sx then
    if a.sy < b.sy then true
    else if a.sy = b.sy then
      decide (offOf o co a < offOf o co b)
        || (decide (offOf o co a = offOf o co b) && decide (a.ltn < b.ltn))
    else false
  else false

/-- `lessRcvOff<CalcOff>`, `src/sort.cc` 184-231. -/
def lessRcvOff (o : OffFn) (co : Bool) (a b : Tr) : Bool :=
  if a.rx < b.rx then true
  else if a.rx = b.rx then
    if a.ry < b.ry then true
    else if a.ry = b.ry then
      decide (offOf o co a < offOf o co b)
        || (decide (offOf o co a = offOf o co b) && decide (a.ltn < b.ltn))
    else false
  else false

/-- `lessLineOff<CalcOff>`, `src/sort.cc` 242-296. -/
def lessLineOff (o : OffFn) (co : Bool) (a b : Tr) : Bool :=
  if a.il < b.il then true
  else if a.il = b.il then
    if a.xl < b.xl then true
    else if a.xl = b.xl then
      decide (offOf o co a < offOf o co b)
        || (decide (offOf o co a = offOf o co b) && decide (a.ltn < b.ltn))
    else false
  else false

/-- `lessOffLine<CalcOff>`, `src/sort.cc` 309-362. -/
def lessOffLine (o : OffFn) (co : Bool) (a b : Tr) : Bool :=
  if offOf o co a < offOf o co b then true
  else if offOf o co a = offOf o co b then
    if a.il < b.il then true
    else if a.il = b.il then
      decide (a.xl < b.xl) || (decide (a.xl = b.xl) && decide (a.ltn < b.ltn))
    else false
  else false

/-- `PIOL_SortType`, `include/ExSeisDat/PIOL/SortType.h` 11, 23-50: a `size_t`, nine values of which are
named. -/
abbrev SortType := Nat

/-- `getComp`, `src/sort.cc` 364-396: an unnamed value sorts as `PIOL_SORTTYPE_SrcRcv`. -/
def getComp (o : OffFn) (ty : SortType) : Tr → Tr → Bool :=
  if ty = 35 then lessSrcRcv
  else if ty = 36 then lessSrcOff o true
  else if ty = 37 then lessSrcOff o false
  else if ty = 38 then lessRcvOff o true
  else if ty = 39 then lessRcvOff o false
  else if ty = 40 then lessLineOff o true
  else if ty = 41 then lessLineOff o false
  else if ty = 42 then lessOffLine o true
  else if ty = 43 then lessOffLine o false
  else lessSrcRcv

/-- A trace record as the sort of a parameter structure moves it: what the comparisons see, the global trace
number, and the copied raw header (the `c` array of `Param`). `src/sort.cc` 703-862, `Param.h` 57-79. -/
structure Rec where
  tr : Tr
  gtn : Nat
  hdr : List Nat
deriving DecidableEq

end Verif.Sort
