import Verif.Basic

/-!
# Start and end of MPI (`src/CommunicatorMPI.cc`)
-/

namespace Verif.Ops

/-- `ManagingMPI`, `CommunicatorMPI.cc` 34. -/
inductive Mode where
  | unset | yes | no
deriving DecidableEq, Repr

/-- The MPI calls watched (`CommunicatorMPI.cc` 73 and 97). -/
inductive Call where
  | init | finalize
deriving DecidableEq, Repr

/-- A call of MPI: by the library (`CommunicatorMPI.cc` 73, 97) or by the user, and the mode at the time. -/
structure Rec where
  lib : Bool
  call : Call
  mode : Mode
deriving DecidableEq, Repr

/-- A program's state: the variable `managingMPI()` (43-47), whether the static `MPIManager` exists (109-115), and the
calls of `MPI_Init` and `MPI_Finalize` so far, the newest first. `MPI_Initialized` and `MPI_Finalized` tell whether
there has been such a call. (Lines of `CommunicatorMPI.cc`.) -/
structure Prog where
  mode : Mode
  manager : Bool
  calls : List Rec
deriving DecidableEq, Repr

/-- `MPI_Initialized`, used at `CommunicatorMPI.cc` 70. -/
def Prog.initialized (p : Prog) : Bool := p.calls.any fun r => r.call = .init

/-- `MPI_Finalized`, used at `CommunicatorMPI.cc` 94. -/
def Prog.finalized (p : Prog) : Bool := p.calls.any fun r => r.call = .finalize

/-- Start of a program, `CommunicatorMPI.cc` 45. -/
def Prog.start : Prog := ⟨.unset, false, []⟩

/-- `MPI_Init` called by the library (`lib`) or the user: a second call is an error. The user's error is `abort`, the
library's `ub`. Called at `CommunicatorMPI.cc` 73. -/
def Prog.mpiInit (p : Prog) (lib : Bool) : Res Prog :=
  if p.initialized then (if lib then .ub else .abort) else .ok { p with calls := ⟨lib, .init, p.mode⟩ :: p.calls }

/-- `MPI_Finalize`: an error before initialisation or a second time. Called at `CommunicatorMPI.cc` 97. -/
def Prog.mpiFinalize (p : Prog) (lib : Bool) : Res Prog :=
  if p.initialized && !p.finalized then .ok { p with calls := ⟨lib, .finalize, p.mode⟩ :: p.calls }
  else if lib then .ub else .abort

/-- `manageMPI`, `CommunicatorMPI.cc` 124-132. -/
def Prog.manage (p : Prog) (b : Bool) : Prog := { p with mode := if b then .yes else .no }

/-- `MPIManager::MPIManager`, `CommunicatorMPI.cc` 62-87. -/
def Prog.makeManager (p : Prog) : Res Prog :=
  if p.mode = .no then .ok { p with manager := true }
  else do
    let was := p.initialized
    let p ← if was then .ok p else p.mpiInit true
    let p := if p.mode = .unset then { p with mode := if was then .no else .yes } else p
    .ok { p with manager := true }

/-- `CommunicatorMPI::CommunicatorMPI`, `CommunicatorMPI.cc` 135-149: the manager is made on the first call; then rank and size are asked
for, which MPI refuses (ending the program) before initialisation and after finalisation. -/
def Prog.construct (p : Prog) : Res Prog := do
  let p ← if p.manager then .ok p else p.makeManager
  if p.initialized && !p.finalized then .ok p else .abort

/-- `MPIManager::~MPIManager`, `CommunicatorMPI.cc` 90-100, at the end of the program if the manager exists. -/
def Prog.exit (p : Prog) : Res Prog :=
  if p.manager && p.mode = .yes then
    if p.finalized then .ok p else p.mpiFinalize true
  else .ok p

/-- What a program can do: `manageMPI`, `MPI_Init`, `MPI_Finalize`, and making a communicator (`CommunicatorMPI.cc`
124-149). -/
inductive Event where
  | manage (b : Bool)
  | userInit
  | userFinalize
  | construct
deriving DecidableEq, Repr

/-- The effect of an event (`CommunicatorMPI.cc` 124-149). -/
def Prog.step (p : Prog) : Event → Res Prog
  | .manage b => .ok (p.manage b)
  | .userInit => p.mpiInit false
  | .userFinalize => p.mpiFinalize false
  | .construct => p.construct

/-- A whole program, up to the destruction of statics (`CommunicatorMPI.cc` 104-115). -/
def Prog.run (p : Prog) : List Event → Res Prog
  | [] => p.exit
  | e :: es => do
    let q ← p.step e
    q.run es

end Verif.Ops
