import Verif.Flow.Set
import Verif.Flow.Life
import Verif.Param.Model

/-!
# Command lines

`getopt` and `std::stoul` as the programs of `util/` use them. Not code of /repo: the GNU C library and the C++ library.
-/

namespace Verif.Options
open Verif.Params
open Verif.Life (Name)

/-- What a string like `"i:o:t:d"` (`util/verifysort.cc` 22) says of a letter: `some true` for an option with a value, `some false`
for one without, `none` for letters that are not in it. -/
abbrev Spec := Char → Option Bool

/-- The letters of one argument after its `-`: the options, `?` for an unknown letter, and an option whose value is the next
argument. Not code of /repo: `getopt`, called in `util/sort.cc` 23-24. -/
def letters (spec : Spec) : List Char → List (Char × Name) × Option Char
  | [] => ([], none)
  | c :: s =>
    match spec c with
    | some false => ((c, []) :: (letters spec s).1, (letters spec s).2)
    | some true => if s = [] then ([], some c) else ([(c, s)], none)
    | none => (('?', []) :: (letters spec s).1, (letters spec s).2)

/-- The options of a command line (without the name of the program). Arguments that are neither options nor values of one are
passed over. Not code of /repo: `getopt`, called in `util/sort.cc` 23-24. -/
def getopt (spec : Spec) : List Name → List (Char × Name)
  | [] => []
  | a :: l =>
    if a = ['-', '-'] then []
    else match a with
      | '-' :: c :: s =>
        match letters spec (c :: s), l with
        | (o, none), l => o ++ getopt spec l
        | (o, some _), [] => o ++ [('?', [])]
        | (o, some x), v :: l => o ++ (x, v) :: getopt spec l
      | _ => getopt spec l

/-- The characters that `strtoul` passes over. Not code of /repo: the C library. -/
def isSpace (c : Char) : Bool := c = ' ' ∨ c.toNat ∈ [9, 10, 11, 12, 13]

/-- `std::stoul`, called in `util/sort.cc` 35: blanks, a sign, digits; the rest is passed over. The program ends with an exception
if there are no digits or if the number needs more than 64 bits. A negative number is taken modulo 2^64. Not code of /repo: the
C++ library. -/
def stoul (s : Name) : Res Nat :=
  let s := s.dropWhile isSpace
  let neg : Bool := s.head? = some '-'
  let s := if s.head? = some '-' ∨ s.head? = some '+' then s.tail else s
  let ds := s.takeWhile Char.isDigit
  if ds = [] then .abort
  else
    let v := Nat.ofDigitChars 10 ds 0
    if 2 ^ 64 ≤ v then .abort
    else if neg then .ok ((2 ^ 64 - v) % 2 ^ 64)
    else .ok v

end Verif.Options
