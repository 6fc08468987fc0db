import Verif.Flow.Process
import Verif.Signal.Freq

/-!
`Set::temporalFilter` in the frequency domain.
-/

namespace Verif.Flow
open Verif.Signal

/-- `Set::temporalFilter` in the frequency domain, `src/Flow/Set.cc` 750-795, with `src/temporalfilter.cc` 480-530: the filter of
`filterFreq` for the window of every trace of the block.  `toR` and `ofR` are the values of samples and back; `p` is what planning does to the
arrays, here the same for all traces. -/
noncomputable def freqOp (toR : Flt → ℝ) (ofR : ℝ → Flt) (p : Planner) (fs : ℝ) (numTail : Nat) (numer denom : List ℝ)
    (nw winCntr : Nat) : BlockOp :=
  fun n ns b => temporalFilter n ns b (fun _ w => do
    let y ← filterFreq p fs numTail numer denom (w.map toR)
    .ok (y.map ofR)) nw winCntr

end Verif.Flow
