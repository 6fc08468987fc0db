/-!
The parallel sort (`/repo/src/sort.cc` lines 403-980): processes exchange a region with their neighbours and
sort again until nothing changes.

All processes run the same steps and the exchanges are matched sends and receives (tags 0 and 1, neighbours
only, waited for before going on), so one round of all processes is one step of the model: a function from the
buffers of all processes to the buffers after the round. A buffer is a function of the rank. MPI calls succeed.
-/

namespace Verif.Sort

/-- What one run of the parallel sort depends on.
`srt` is `std::sort` with the comparison in use; `msg` is what arrives of an element that is sent to another
process; `key` is the value compared to see whether a round changed anything; `dflt` fills the buffers.
`sort.cc` 572-648 and 868-967. -/
structure Cfg (α β : Type) where
  srt : List α → List α
  msg : α → α
  key : α → β
  dflt : α

variable {α β : Type}

/-- `edge1`, `src/sort.cc` 583 and 874. -/
def edge1 (R r : Nat) : Nat := if r ≠ 0 then R else 0

/-- `edge2`, `src/sort.cc` 584 and 875. -/
def edge2 (P R r : Nat) : Nat := if r ≠ P - 1 then R else 0

/-- `sendLeft`, `src/sort.cc` 524-561 and 789-862: each process but the first sends its first `R` elements to
the process before it, which puts them over its last `R` elements. -/
def sendLeft (c : Cfg α β) (P R : Nat) (t : Nat → List α) (r : Nat) : List α :=
  if r ≠ P - 1 then (t r).take ((t r).length - R) ++ ((t (r + 1)).take R).map c.msg else t r

/-- `sendRight`, `src/sort.cc` 476-514 and 703-780: each process but the last sends its last `R` elements to
the process after it, which puts them over its first `R` elements. -/
def sendRight (c : Cfg α β) (R : Nat) (t : Nat → List α) (r : Nat) : List α :=
  if r ≠ 0 then ((t (r - 1)).drop ((t (r - 1)).length - R)).map c.msg ++ (t r).drop R else t r

/-- Sorting from index `e` to the end, `src/sort.cc` 602-610 and 896-912. -/
def sortFrom (c : Cfg α β) (e : Nat) (l : List α) : List α := l.take e ++ c.srt (l.drop e)

/-- Sorting all but the last `e` elements, `src/sort.cc` 614-621 and 916-932. -/
def sortTo (c : Cfg α β) (e : Nat) (l : List α) : List α :=
  c.srt (l.take (l.length - e)) ++ l.drop (l.length - e)

/-- One pass of the loop up to the test for a change, `src/sort.cc` 600-621 and 894-932. -/
def round (c : Cfg α β) (P R : Nat) (t : Nat → List α) (r : Nat) : List α :=
  sortTo c (edge2 P R r) (sendRight c R (fun q => sortFrom c (edge1 R q) (sendLeft c P R t q)) r)

/-- The sum over all processes of `reduced` is not zero, `src/sort.cc` 623-630 and 934-949: some process sees
a difference within its own `lnt` elements. -/
def changed [DecidableEq β] (c : Cfg α β) (P : Nat) (lnt : Nat → Nat) (t t' : Nat → List α) : Bool :=
  (List.range P).any fun r => decide (((t' r).take (lnt r)).map c.key ≠ ((t r).take (lnt r)).map c.key)

/-- The loop, `src/sort.cc` 598-643 and 892-962, cut off after `fuel` rounds: `none` is a loop that has not
ended by then. -/
def loop [DecidableEq β] (c : Cfg α β) (P R : Nat) (lnt : Nat → Nat) : Nat → (Nat → List α) → Option (Nat → List α)
  | 0, _ => none
  | fuel + 1, t =>
    if changed c P lnt t (round c P R t) then loop c P R lnt fuel (round c P R t) else some (round c P R t)

/-- `comm->min` over the numbers of elements of the processes, `src/sort.cc` 658 and 873. -/
def minLen : List (List α) → Nat
  | [] => 0
  | [l] => l.length
  | l :: ls => min l.length (minLen ls)

/-- The share of process `r`. `sort.cc` 572-648. -/
def share (parts : List (List α)) (r : Nat) : List α := parts.getD r []

/-- `sort<T>`, `src/sort.cc` 572-648, and `sortP`, 868-967, with `regionSz` from lines 658 and 873. The argument
and the result are the shares of all processes in rank order. -/
def psort [DecidableEq β] (c : Cfg α β) (fuel : Nat) (parts : List (List α)) : Option (List (List α)) :=
  let P := parts.length
  let R := minLen parts / 4
  let lnt := fun r => (share parts r).length
  let t0 := fun r => c.srt (share parts r) ++ List.replicate (edge2 P R r) c.dflt
  if P > 1 then (loop c P R lnt fuel t0).map fun t => (List.range P).map fun r => (t r).take (lnt r)
  else some (parts.map c.srt)

/-- `comm->offset`, used at `src/sort.cc` 661: the number of elements on the processes before `r`. -/
def before (parts : List (List α)) (r : Nat) : Nat := ((parts.take r).map List.length).sum

/-- `plist`, `src/sort.cc` 663-667. -/
def plist (list : List (List Nat)) : List (List (Nat × Nat)) :=
  (List.range list.length).map fun r => (share list r).zipIdx (before list r)

/-- `std::pair`'s less-than, used by `std::sort` at `src/sort.cc` 609, 620 (and 675-683). -/
def pairLt (a b : Nat × Nat) : Bool := decide (a.1 < b.1) || (decide (a.1 = b.1) && decide (a.2 < b.2))

/-- `sort(piol, list)`, `src/sort.cc` 655-694. -/
def sortList (srt : List (Nat × Nat) → List (Nat × Nat)) (fuel : Nat) (list : List (List Nat)) :
    Option (List (List Nat)) :=
  (psort { srt := srt, msg := id, key := id, dflt := (0, 0) } fuel (plist list)).map
    fun l => l.map fun q => q.map Prod.snd

/-- `sort(piol, prm, comp, FileOrder)`, `src/sort.cc` 969-980: the shares of the sorted traces and the list
returned. `gtn` is the global trace number as `getPrm<size_t>` returns it. -/
def sortTraces [DecidableEq β] (c : Cfg α β) (srtp : List (Nat × Nat) → List (Nat × Nat)) (gtn : α → Nat)
    (fileOrder : Bool) (fuel : Nat) (parts : List (List α)) : Option (List (List α) × List (List Nat)) :=
  match psort c fuel parts with
  | none => none
  | some out =>
    let list := out.map fun q => q.map gtn
    if fileOrder then (sortList srtp fuel list).map fun l => (out, l) else some (out, list)

/-- The loop of `checkOrder`, `src/sort.cc` 413-419, over the traces that one process has read. -/
def checkOrder (comp : α → α → Bool) : List α → Bool
  | a :: b :: l => if !comp a b then false else checkOrder comp (b :: l)
  | _ => true

end Verif.Sort
