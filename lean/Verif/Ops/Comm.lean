import Verif.Basic

/-!
# The communicator's offset (`CommunicatorMPI::offset`, `src/CommunicatorMPI.cc`)

A communicator is the list of its processes, given by their ranks in `MPI_COMM_WORLD`, in the order of their ranks in the
communicator.
-/

namespace Verif.Ops

/-- Sum of `size_t` values (`MPI_SUM`). `CommunicatorMPI.cc` 210-232. -/
def sum64 (l : List Nat) : Nat := l.foldl add64 0

/-- `MPI_Exscan` with `MPI_SUM` on communicator `on`, as seen by its member `w` (`CommunicatorMPI.cc` 227-229). `vals w'`
is the value with which process `w'` makes the call, none if it does not. No result if a member never makes the call: the
call does not return. The member of rank 0 gets nothing defined. -/
def exscan (on : List Nat) (vals : Nat → Option Nat) (w : Nat) : Option (Res Nat) :=
  if on.all fun w' => (vals w').isSome then
    let before := on.takeWhile (· ≠ w)
    some (if before = [] then .ub else .ok (sum64 (before.map fun w' => (vals w').getD 0)))
  else none

/-- `CommunicatorMPI::offset`, `CommunicatorMPI.cc` 225-231, on member `w` of `comm`: the scan is over `MPI_COMM_WORLD`, the
rank 0 looked at is the one of `comm`. -/
def offset (world comm : List Nat) (vals : Nat → Option Nat) (w : Nat) : Option (Res Nat) :=
  match exscan world vals w with
  | none => none
  | some r => some (if comm.head? = some w then .ok 0 else r)

end Verif.Ops
