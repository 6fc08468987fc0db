import Verif.Signal.Loop

/-!
# Angle gathers (`Set::toAngle`, `src/Flow/Set.cc` 606-662, with `src/Flow/RadonGatherState.cc`)
-/

namespace Verif.Flow

open Verif.Signal

/-- What the operation uses of the velocity model (`include/ExSeisDat/Flow/RadonGatherState.hh` 26-49) and of its
arguments. Arithmetic on floating-point numbers is left open: `vidx z` is `size_t(z * in->inc / vInc)`, the sample of the
model at the time of sample `z` (`Set.cc` 638-640), and `dist v j` is `llround(v / cos(j * oInc))` (643-645). -/
structure Radon (V : Type) where
  vtrc : List V
  il : List Int
  xl : List Int
  vNs : Nat
  vBin : Nat
  oGSz : Nat
  vidx : Nat → Nat
  dist : V → Nat → Int

variable {V S : Type}

/-- A `size_t` converted to the 64-bit `Integer`, `Set.cc` 642. -/
def toInteger (n : Nat) : Int := if n < 2 ^ 63 then n else (n : Int) - 2 ^ 64

/-- The trace number `k`, `Set.cc` 642-646: a signed number divided by a `size_t` is unsigned division. -/
def binOf (st : Radon V) (v : V) (j : Nat) : Res Int :=
  if st.vBin = 0 then .ub else .ok (toInteger ((st.dist v j % 2 ^ 64).toNat / st.vBin))

/-- One sample, `Set.cc` 634-649; `inp` are the samples of the `iGSz` input traces of `ns` samples each, `out` those of the
result, `gNum` the number of the gather on this process. -/
def angleCell (st : Radon V) (gNum iGSz ns : Nat) (inp : List S) (j z : Nat) (out : List S) : Res (List S) := do
  let v ← readAt st.vtrc (add64 (mul64 gNum st.vNs) (min (st.vidx z) st.vNs))
  let k ← binOf st v j
  if 0 < k ∧ k.toNat < iGSz then do
    let x ← readAt inp (add64 (mul64 k.toNat ns) z)
    writeAt out (add64 (mul64 j ns) z) x
  else .ok out

/-- The inline and crossline of the traces of the result, `Set.cc` 653-660. -/
def angleKeys (st : Radon V) (gNum : Nat) (keys : List (Int × Int)) : Res (List (Int × Int)) :=
  forRange (fun j keys => do
    let il ← readAt st.il gNum
    let xl ← readAt st.xl gNum
    writeAt keys j (il, xl)) 0 st.oGSz keys

/-- An angle gather, `Set.cc` 619-660: the samples, and the inline and crossline of each trace. A gather without traces
gives zeros (624-626). -/
def toAngle (zero : S) (st : Radon V) (gNum iGSz ns : Nat) (inp : List S) : Res (List S × List (Int × Int)) :=
  let out := List.replicate (mul64 st.oGSz ns) zero
  let keys := List.replicate st.oGSz ((0, 0) : Int × Int)
  if iGSz = 0 then .ok (out, keys)
  else do
    let out ← forRange (fun j out => forRange (fun z out => angleCell st gNum iGSz ns inp j z out) 0 ns out) 0 st.oGSz out
    let keys ← angleKeys st gNum keys
    .ok (out, keys)

end Verif.Flow
