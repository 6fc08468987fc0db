import Verif.Basic

/-!
# The log (`src/Logger.cc`, `include/ExSeisDat/PIOL/Logger.hh`, `src/ExSeisPIOL.cc`)
-/

namespace Verif.Ops

/-- `Logger::Status`, `Logger.hh` 159-174. -/
inductive Status where
  | note | debug | warning | error | request
deriving DecidableEq, Repr

/-- `Logger::Item`, `Logger.hh` 30-45. File name and message are one value of an arbitrary type, the layer is left
out. -/
structure Item (M : Type) where
  stat : Status
  msg : M
  vrbsy : Nat
deriving DecidableEq, Repr

/-- The fields of `Logger`, `Logger.hh` 47-54. `printed` is what went to the error stream, the newest first. -/
structure Log (M : Type) where
  maxLevel : Nat
  loglist : List (Item M)
  error : Bool
  printed : List (Item M)

variable {M : Type}

/-- The constructor, `Logger.hh` 60. -/
def Log.new (maxLevel : Nat) : Log M := ⟨maxLevel, [], false, []⟩

/-- `record`, `Logger.cc` 25-39. -/
def Log.record (l : Log M) (i : Item M) : Log M :=
  let l := if i.vrbsy ≤ l.maxLevel then { l with loglist := i :: l.loglist } else l
  if i.stat = .error then { l with error := true } else l

/-- `record` with a condition, `Logger.cc` 12-23. -/
def Log.recordIf (l : Log M) (i : Item M) (c : Bool) : Log M := if c then l.record i else l

/-- `procLog`, `Logger.cc` 59-68: print from the front of the list, then empty it. -/
def Log.procLog (l : Log M) : Log M := { l with loglist := [], printed := l.loglist.foldl (fun p i => i :: p) l.printed }

/-- `numStat`, `Logger.cc` 41-52. -/
def Log.numStat (l : Log M) (s : Status) : Nat := l.loglist.foldl (fun n i => if i.stat = s then n + 1 else n) 0

/-- `isErr`, `Logger.cc` 54-57. -/
def Log.isErr (l : Log M) : Bool := l.error

/-- A call on the log (`Logger.hh` 82-121). -/
inductive LogOp (M : Type) where
  | record (i : Item M)
  | recordIf (i : Item M) (c : Bool)
  | procLog

/-- The effect of a call, `Logger.cc` 12-39 and 59-68. -/
def Log.step (l : Log M) : LogOp M → Log M
  | .record i => l.record i
  | .recordIf i c => l.recordIf i c
  | .procLog => l.procLog

/-- `ExSeisPIOL::isErr`, `ExSeisPIOL.cc` 13-23: with an error recorded, one more is recorded, the log is printed
(destructor of the log) and the process ends (second value `true`); otherwise nothing happens. The destruction of the
communicator is left out. -/
def checkErr (l : Log M) (fatal : M) : Log M × Bool :=
  if l.isErr then ((l.record ⟨.error, fatal, 0⟩).procLog, true) else (l, false)

end Verif.Ops
