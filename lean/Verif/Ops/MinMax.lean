import Verif.Basic
import Mathlib.Order.Defs.LinearOrder
import Mathlib.Data.Rat.Defs
import Mathlib.Algebra.Order.Ring.Rat

/-!
# Smallest and largest values over processes and files

`include/ExSeisDat/PIOL/operations/minmax.h` and `Set::getMinMax` in `src/Flow/Set.cc`. Values are elements of a linear
order (finite doubles; not-a-number is not modelled).
-/

namespace Verif.Ops

variable {A V : Type} [LinearOrder V]

/-- Keep the best element seen so far and its index; the second index is that of the next element.
Step of `std::minmax_element`, used in `minmax.h` 94 and 117. -/
def best (better : A → A → Bool) : A → Nat → Nat → List A → Nat × A
  | b, bi, _, [] => (bi, b)
  | b, bi, i, x :: xs => if better x b then best better x i (i + 1) xs else best better b bi (i + 1) xs

/-- `std::minmax_element`, first half: the first of the smallest elements. Used in `minmax.h` 94 and 117. -/
def firstMin (lt : A → A → Bool) : List A → Option (Nat × A)
  | [] => none
  | x :: xs => some (best lt x 0 1 xs)

/-- `std::minmax_element`, second half: the last of the largest elements. Used in `minmax.h` 94 and 117. -/
def lastMax (lt : A → A → Bool) : List A → Option (Nat × A)
  | [] => none
  | x :: xs => some (best (fun a b => !lt a b) x 0 1 xs)

/-- The comparison `min`, `minmax.h` 77-87. -/
def pairLess (e1 e2 : A → V) (a b : A) : Bool :=
  if e1 a < e1 b then true else if e1 a = e1 b ∧ e2 a < e2 b then true else false

/-- `CoordElem`, `minmax.h` 17-23: a value and a trace number. -/
structure Elem (V : Type) where
  val : V
  num : Nat
deriving DecidableEq, Repr

/-- What a process with traces sends: the values of its smallest and largest element and their trace numbers,
`minmax.h` 94-100. A process without traces sends something too (the value of a default object), but that is removed
from the gathered lists (104-112); here it sends nothing. -/
def sends (e1 e2 : A → V) (p : Nat × List A) : List (Elem V) :=
  match firstMin (pairLess e1 e2) p.2, lastMax (pairLess e1 e2) p.2 with
  | some mn, some mx => [⟨e1 mn.2, add64 p.1 mn.1⟩, ⟨e1 mx.2, add64 p.1 mx.1⟩]
  | _, _ => []

/-- The numeric limit of `size_t`. `minmax.h` 127-128. -/
def noTrace : Nat := 2 ^ 64 - 1

/-- `getCoordMinMax`, `minmax.h` 68-132: `parts` are offset and elements of every process in rank order; `zero` is the
value 0 given when there is no trace at all (two equal iterators, 117-129). -/
def getCoordMinMax (zero : V) (e1 e2 : A → V) (parts : List (Nat × List A)) : Elem V × Elem V :=
  let all := parts.flatMap (sends e1 e2)
  let lt : Elem V → Elem V → Bool := fun a b => a.val < b.val
  match firstMin lt all, lastMax lt all with
  | some mn, some mx => (mn.2, mx.2)
  | _, _ => (⟨zero, noTrace⟩, ⟨zero, noTrace⟩)

/-- `getMinMax`, `minmax.h` 147-164: both coordinates, each with the other one to decide. -/
def getMinMax (zero : V) (e1 e2 : A → V) (parts : List (Nat × List A)) : (Elem V × Elem V) × (Elem V × Elem V) :=
  (getCoordMinMax zero e1 e2 parts, getCoordMinMax zero e2 e1 parts)

/-- `std::numeric_limits<double>::max()`. Used in `Set.cc` 521-527. -/
def dblMax : ℚ := (2 ^ 53 - 1) * 2 ^ 971
/-- `std::numeric_limits<double>::min()`: the smallest positive normal double. Used in `Set.cc` 521-527. -/
def dblMin : ℚ := 1 / 2 ^ 1022

/-- One file's contribution to the minimum, `Set.cc` 547-555. -/
def takeMin (mm t : Elem ℚ) : Elem ℚ :=
  if t.val = mm.val then { mm with num := min t.num mm.num } else if t.val < mm.val then t else mm

/-- One file's contribution to the maximum, `Set.cc` 558-566. -/
def takeMax (mm t : Elem ℚ) : Elem ℚ :=
  if t.val = mm.val then { mm with num := min t.num mm.num } else if mm.val < t.val then t else mm

/-- `Set::getMinMax`, `Set.cc` 517-570, for one coordinate. `files` are the files of the set, each with the parts of
all processes. -/
def setMinMax (e1 e2 : A → ℚ) (files : List (List (Nat × List A))) : Elem ℚ × Elem ℚ :=
  files.foldl (fun mm f => let t := getCoordMinMax 0 e1 e2 f; (takeMin mm.1 t.1, takeMax mm.2 t.2))
    (⟨dblMax, noTrace⟩, ⟨dblMin, noTrace⟩)

end Verif.Ops
