import Verif.Decomp.Model

/-!
# The distributed vector
-/

namespace Verif.Util
open Verif.Decomp

/-- `MPI_Distributed_vector<T>::Model`, `include/ExSeisDat/utils/mpi/MPI_Distributed_vector.hh` 28-50 and its constructor
77-92: number of elements and processes, `sizeof(T)`, the contents of the window of each process by element, and the size
in bytes of each window (91). The contents before the first `set` are arbitrary. -/
structure DistVec (T : Type) where
  globalSize : Nat
  numRanks : Nat
  tSize : Nat
  data : Nat → Nat → T
  bytes : Nat → Nat

/-- The constructor, `MPI_Distributed_vector.hh` 77-92, on all processes. -/
def DistVec.new {T : Type} (globalSize numRanks tSize : Nat) (init : Nat → Nat → T) : DistVec T :=
  { globalSize, numRanks, tSize, data := init,
    bytes := fun rank => match blockDecomposition globalSize numRanks rank with | .ok d => d.localSize | _ => 0 }

variable {T : Type}

/-- Access to element `i` of the window of process `r`: it must lie within the bytes allocated (91, with the displacement
unit `sizeof(T)`); else undefined, be the access direct (120, 153) or through MPI (127, 161).
(Lines of `Distributed_vector.hh`.) -/
def DistVec.inWindow (v : DistVec T) (r i : Nat) : Prop := (i + 1) * v.tSize ≤ v.bytes r

instance (v : DistVec T) (r i : Nat) : Decidable (v.inWindow r i) := by unfold DistVec.inWindow; infer_instance

/-- `set`, `MPI_Distributed_vector.hh` 101-133, on process `rank`; 115 and 118 assert. -/
def DistVec.set (v : DistVec T) (rank i : Nat) (val : T) : Res (DistVec T) :=
  if i > v.globalSize then .ok v
  else do
    let loc ← blockDecompositionLocation v.globalSize v.numRanks i
    if ¬ rank > 0 then .abort
    else if ¬ v.inWindow loc.rank loc.localIndex then .ub
    else .ok { v with data := fun r j => if r = loc.rank ∧ j = loc.localIndex then val else v.data r j }

/-- `get`, `MPI_Distributed_vector.hh` 135-169, on process `rank`; `dflt` is `T()`; 148 and 151 assert. -/
def DistVec.get (v : DistVec T) (dflt : T) (rank i : Nat) : Res T :=
  if i > v.globalSize then .ok dflt
  else do
    let loc ← blockDecompositionLocation v.globalSize v.numRanks i
    if ¬ rank > 0 then .abort
    else if ¬ v.inWindow loc.rank loc.localIndex then .ub
    else .ok (v.data loc.rank loc.localIndex)

end Verif.Util
