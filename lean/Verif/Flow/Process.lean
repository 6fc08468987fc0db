import Verif.Arr
import Verif.Endian.Model
import Verif.Signal.AGC
import Verif.Signal.Filter

/-!
# Operations on single traces in a set (`src/Flow/Set.cc` 140-169, 665-713 and 750-795)

An operation works on a block of traces in place. Samples are `float` values, that is their bits with a multiplication of any
kind; the arithmetic of the filter is that of a field (see `Signal/Filter.lean`) with conversions from and to `float`.
-/

namespace Verif.Flow
open Verif.Endian Verif.Signal

/-- A sample (`exseis::utils::Trace_value`, `include/ExSeisDat/utils/typedefs.h`): the bits of a `float`. -/
structure Flt where
  bits : BitVec 32
deriving DecidableEq, Repr

instance : Zero Flt := ⟨⟨0#32⟩⟩

/-- The comparison of a sample with zero: both zeros are equal to it. `taper.cc` 27 and 30. -/
def Flt.isZero (x : Flt) : Bool := x.bits.toNat % 2 ^ 31 = 0

/-- Element `i` of the samples of a block (little-endian). The vector `trc` of `TraceBlock.hh` 41. -/
def floatAt (t : Arr Byte) (i : Nat) : Flt :=
  ⟨fromBE32 (t.val (4 * i + 3)) (t.val (4 * i + 2)) (t.val (4 * i + 1)) (t.val (4 * i))⟩

/-- The first `n` samples of a block. The vector `trc` of `TraceBlock.hh` 41. -/
def floats (t : Arr Byte) (n : Nat) : List Flt := (List.range n).map (floatAt t)

/-- The memory of samples. The vector `trc` of `TraceBlock.hh` 41. -/
def bytesOf (b : List Flt) : Arr Byte :=
  ⟨4 * b.length, fun x => (toBESigned 4 (b[x / 4]?.getD 0).bits)[3 - x % 4]?.getD 0#8⟩

/-- An `InPlaceMod` (`Set.cc` 31) with the option `SingleTrace`: number of traces, samples per trace, samples. The
operations modelled leave the parameters of the block alone. -/
abbrev BlockOp := Nat → Nat → List Flt → Res (List Flt)

/-- `calcFunc` of a block whose operations all have the option `SingleTrace`, `Set.cc` 140-169: they are applied in place in
order. (The operation added by `output`, 503-507, does nothing.) -/
def runQueue : List BlockOp → Nat → Nat → Arr Byte → Res (Arr Byte)
  | [], _, _, t => .ok t
  | op :: l, n, ns, t => do
    let b ← op n ns (floats t (n * ns))
    runQueue l n ns (bytesOf b)

/-- The loop over the traces of a block, `Set.cc` 674-682 and 703-710: `f` gets the samples of the trace and the samples
behind them in memory. The block begins with the traces still to do. -/
def eachTrace (f : List Flt → List Flt → Res (List Flt)) (ns : Nat) : Nat → List Flt → Res (List Flt)
  | 0, b => .ok b
  | n + 1, b =>
    if b.length < ns then .ub
    else do
      let s ← f (b.take ns) (b.drop ns)
      let rest ← eachTrace f ns n (b.drop ns)
      .ok (s ++ rest)

/-- `taper`, `taper.cc` 16-67, of a trace with other samples behind it: `Signal.taper` but for the sample looked at in 30,
which is the first one behind the trace if all samples of the trace are zero. -/
def taperIn [Mul Flt] (f : Nat → Nat → Flt) : Nat → List Flt → List Flt → Nat → Nat → Res (List Flt)
  | 0, _, _, _, _ => .ub
  | fuel + 1, signal, behind, left, right =>
    if ¬ (signal.length > left ∧ signal.length > right) then .abort
    else do
      let s0 ← readAt (signal ++ behind) 0
      if s0.isZero then
        let muted := signal.takeWhile Flt.isZero
        let trunc := signal.dropWhile Flt.isZero
        let t0 ← readAt (trunc ++ behind) 0
        if t0.isZero then .abort
        else do
          let out ← taperIn f fuel trunc behind (min left trunc.length) (min right trunc.length)
          .ok (muted ++ out)
      else taperLoops signal f left right

/-- `Set::taper`, `Set.cc` 665-686. The recursion of `taper` goes at most two deep. -/
def taperOp [Mul Flt] (f : Nat → Nat → Flt) (left right : Nat) : BlockOp :=
  fun n ns b => eachTrace (fun s behind => taperIn f 2 s behind left right) ns n b

/-- `Set::AGC`, `Set.cc` 688-713. (`AGC` reads and writes inside the trace only, see `C40_bounds`.) -/
def agcOp [Mul Flt] (g : GainFn Flt) (w : Nat) (target : Flt) : BlockOp :=
  fun n ns b => eachTrace (fun s _ => agc s g w target) ns n b

/-- `Set::temporalFilter` in the time domain, `Set.cc` 750-795: `temporalFilter` of the whole block, the coefficients being
`numer` and `denom`. -/
def filterOp {K : Type} [Field K] (toK : Flt → K) (ofK : K → Flt) (p : Pad) (numTail : Nat) (numer denom : List K)
    (nw winCntr : Nat) : BlockOp :=
  fun n ns b => temporalFilter n ns b (fun nw w => do
    let y ← filterTime p nw (w.map toK) numTail numer denom
    .ok (y.map ofK)) nw winCntr

end Verif.Flow
