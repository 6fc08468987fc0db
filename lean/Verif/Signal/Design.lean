import Verif.Signal.Filter
import Mathlib.Analysis.SpecialFunctions.Trigonometric.Basic
import Mathlib.Analysis.SpecialFunctions.Pow.Real

/-!
# Design of the temporal filter (`src/temporalfilter.cc`)

The arithmetic is that of the real and complex numbers: rounding of `float` is not modelled.  A division by zero gives
zero here; the theorems show that none occurs.
-/

namespace Verif.Signal

/-- `FltrType`, `include/ExSeisDat/PIOL/operations/temporalfilter.hh` 23-35. -/
inductive Fltr where
  | lowpass | highpass | bandpass | bandstop
deriving DecidableEq, Repr

/-- `filDiv`, `temporalfilter.cc` 77-81. -/
noncomputable def filDiv (x : ℂ) : ℂ := (4 + x) / (4 - x)

/-- One round of `lowpass`, `temporalfilter.cc` 90-94; the state is `pprodBL`, `z` and `p`. -/
noncomputable def lowStep (cf1 : ℝ) (i : Nat) (s : ℂ × List ℂ × List ℂ) : Res (ℂ × List ℂ × List ℂ) := do
  let a ← readAt s.2.2 i
  let p ← writeAt s.2.2 i (filDiv (a * cf1))
  let z ← writeAt s.2.1 i (-1)
  .ok (s.1 * (4 - a * cf1), z, p)

/-- `lowpass`, `temporalfilter.cc` 83-97: the value returned, `z` and `p`. -/
noncomputable def lowpass (N : Nat) (z p : List ℂ) (cf1 : ℝ) : Res (ℝ × List ℂ × List ℂ) := do
  let s ← forRange (lowStep cf1) 0 N (1, z, p)
  .ok (cf1 ^ N / s.1.re, s.2.1, s.2.2)

/-- One round of `highpass`, `temporalfilter.cc` 107-112; the state is `pprod`, `pprodBL`, `z` and `p`. -/
noncomputable def highStep (cf1 : ℝ) (i : Nat) (s : ℂ × ℂ × List ℂ × List ℂ) : Res (ℂ × ℂ × List ℂ × List ℂ) := do
  let a ← readAt s.2.2.2 i
  let p ← writeAt s.2.2.2 i (filDiv (cf1 / a))
  let z ← writeAt s.2.2.1 i 1
  .ok (s.1 * -a, s.2.1 * (4 - cf1 / a), z, p)

/-- `highpass`, `temporalfilter.cc` 99-117. -/
noncomputable def highpass (N : Nat) (z p : List ℂ) (cf1 : ℝ) : Res (ℝ × List ℂ × List ℂ) := do
  let s ← forRange (highStep cf1) 0 N (1, 1, z, p)
  .ok (1 / s.1.re * (4 ^ N / s.2.1.re), s.2.2.1, s.2.2.2)

/-- One round of the first loop of `bandpass`, `temporalfilter.cc` 131-137.  `sq` is the complex square root. -/
noncomputable def bandStep (sq : ℂ → ℂ) (N : Nat) (cntr len : ℝ) (i : Nat) (s : List ℂ × List ℂ) :
    Res (List ℂ × List ℂ) := do
  let a ← readAt s.2 i
  let a := a * ((cntr / 2 : ℝ) : ℂ)
  let p ← writeAt s.2 i a
  let p ← writeAt p (N + i) (a - sq (a * a - len))
  let p ← writeAt p i (a + sq (a * a - len))
  let z ← writeAt s.1 i 1
  let z ← writeAt z (N + i) (-1)
  .ok (z, p)

/-- One round of the second loop of `bandpass`, `temporalfilter.cc` 139-142; the state is `pprodBL` and `p`. -/
noncomputable def bilinStep (i : Nat) (s : ℂ × List ℂ) : Res (ℂ × List ℂ) := do
  let a ← readAt s.2 i
  let p ← writeAt s.2 i (filDiv a)
  .ok (s.1 * (4 - a), p)

/-- `bandpass`, `temporalfilter.cc` 119-148; `std::norm` is the square of the absolute value. -/
noncomputable def bandpass (sq : ℂ → ℂ) (N : Nat) (z p : List ℂ) (cf1 cf2 : ℝ) : Res (ℝ × List ℂ × List ℂ) := do
  let s ← forRange (bandStep sq N (cf2 - cf1) (cf1 * cf2)) 0 N (z, p)
  let t ← forRange bilinStep 0 (2 * N) (1, s.2)
  .ok ((cf2 - cf1) ^ N * 4 ^ N * t.1.re / Complex.normSq t.1, s.1, t.2)

/-- One round of the first loop of `bandstop`, `temporalfilter.cc` 161-167. -/
noncomputable def stopStep (sq : ℂ → ℂ) (N : Nat) (cntr len len2 : ℝ) (i : Nat) (s : List ℂ × List ℂ) :
    Res (List ℂ × List ℂ) := do
  let a ← readAt s.2 i
  let a := ((cntr / 2 : ℝ) : ℂ) / a
  let p ← writeAt s.2 i a
  let p ← writeAt p (N + i) (a - sq (a * a - len2))
  let p ← writeAt p i (a + sq (a * a - len2))
  let z ← writeAt s.1 i (Complex.I * len)
  let z ← writeAt z (N + i) (-(Complex.I * len))
  .ok (z, p)

/-- One round of the second loop of `bandstop`, `temporalfilter.cc` 172-177; the state is `zPrdct`, `pPrdct`, `z` and
`p`. -/
noncomputable def bilinStep2 (i : Nat) (s : ℂ × ℂ × List ℂ × List ℂ) : Res (ℂ × ℂ × List ℂ × List ℂ) := do
  let b ← readAt s.2.2.1 i
  let z ← writeAt s.2.2.1 i (filDiv b)
  let a ← readAt s.2.2.2 i
  let p ← writeAt s.2.2.2 i (filDiv a)
  .ok (s.1 * (4 - b), s.2.1 * (4 - a), z, p)

/-- `bandstop`, `temporalfilter.cc` 150-181. -/
noncomputable def bandstop (sq : ℂ → ℂ) (N : Nat) (z p : List ℂ) (cf1 cf2 : ℝ) : Res (ℝ × List ℂ × List ℂ) := do
  let s ← forRange (stopStep sq N (cf2 - cf1) (Real.sqrt (cf1 * cf2)) (cf1 * cf2)) 0 N (z, p)
  let t ← forRange bilinStep2 0 (N * 2) (1, 1, s.1, s.2)
  .ok ((t.1.re * t.2.1.re + t.1.im * t.2.1.im) / Complex.normSq t.2.1, t.2.2.1, t.2.2.2)

/-- One of the poles of `makeFilter`, `temporalfilter.cc` 203-207. -/
noncomputable def pole (N i : Nat) : ℂ :=
  -Complex.exp (Complex.I * Real.pi * ((1 + 2 * i - N : ℝ) : ℂ) / ((2 * N : ℝ) : ℂ))

/-- One of the warped corners of `makeFilter`, `temporalfilter.cc` 193-196. -/
noncomputable def warp (fs cf : ℝ) : ℝ := 4 * Real.tan (Real.pi * (cf / (fs * 0.5)) / 2)

/-- One round of the exchange at the end of `makeFilter`, `temporalfilter.cc` 238-240; `i ≤ tN`. -/
def swapStep {K : Type} (tN i : Nat) (d : List K) : Res (List K) := do
  let a ← readAt d i
  let b ← readAt d (tN - i)
  let d ← writeAt d i b
  writeAt d (tN - i) a

/-- `makeFilter`, `temporalfilter.cc` 183-241: the arrays `numer` and `denom`, for `N ≥ 0`. -/
noncomputable def makeFilter (sq : ℂ → ℂ) (type : Fltr) (N : Nat) (fs cf1 cf2 : ℝ) : Res (List ℝ × List ℝ) := do
  let tN := if cf2 = 0 then N else N * 2
  let Wn := warp fs cf1
  let W2 := warp fs cf2
  let z := List.replicate tN (0 : ℂ)
  let p ← forRange (fun i p => writeAt p i (pole N i)) 0 N (List.replicate tN (0 : ℂ))
  let r ← match type with
    | .lowpass => lowpass N z p Wn
    | .highpass => highpass N z p Wn
    | .bandpass => bandpass sq N z p Wn W2
    | .bandstop => bandstop sq N z p Wn W2
  let numer ← expandPoly Complex.re r.2.1
  let denom ← expandPoly Complex.re r.2.2
  let denom ← forRange (swapStep tN) 0 ((tN + 1) / 2) denom
  .ok (numer.map (· * r.1), denom)

/-- The quotient that `filterOrder` rounds up, `temporalfilter.cc` 44-48: the corners in cycles per sample. -/
noncomputable def orderQuot (cornerP cornerS : ℝ) : ℝ :=
  0.5 * Real.log (99 / ((10 : ℝ) ^ (0.3 : ℝ) - 1)) /
    Real.log (Real.tan (Real.pi * cornerS) / Real.tan (Real.pi * cornerP))

/-- `filterOrder`, `temporalfilter.cc` 38-49: converting an infinite value (corners with the same tangent, a division
by zero) or one that is not above `-1` to `size_t` is undefined. -/
noncomputable def filterOrder (cornerP cornerS : ℝ) : Res Nat :=
  if Real.log (Real.tan (Real.pi * cornerS) / Real.tan (Real.pi * cornerP)) = 0 then .ub
  else if ⌈orderQuot cornerP cornerS⌉ < 0 then .ub
  else .ok ⌈orderQuot cornerP cornerS⌉.toNat

/-- What `temporalFilter` with corners only does before it filters, `temporalfilter.cc` 243-292: the corners and the
order it hands on.  `corner` is the sorted list; an element that does not exist is read out of bounds. -/
noncomputable def chooseOrder (type : Fltr) (corner : List ℝ) : Res (ℝ × ℝ × Nat) :=
  match type with
  | .lowpass => do
    let c0 ← readAt corner 0
    let c1 ← readAt corner 1
    let n ← filterOrder c0 c1
    .ok (c0, 0, n)
  | .highpass => do
    let c1 ← readAt corner 1
    let c0 ← readAt corner 0
    let n ← filterOrder c1 c0
    .ok (c1, 0, n)
  | .bandpass => do
    let c1 ← readAt corner 1
    let c2 ← readAt corner 2
    let c0 ← readAt corner 0
    let c3 ← readAt corner 3
    let n ← filterOrder c1 c0
    let m ← filterOrder c2 c3
    .ok (c1, c2, max n m)
  | .bandstop => do
    let c0 ← readAt corner 0
    let c3 ← readAt corner 3
    let c1 ← readAt corner 1
    let c2 ← readAt corner 2
    let n ← filterOrder c0 c1
    let m ← filterOrder c3 c2
    .ok (c0, c3, max n m)

/-- The factor that `filterFreq` applies to frequency `i`, `temporalfilter.cc` 349-361; `N` is the order.  For the
transforms see `Signal/Freq.lean`. -/
noncomputable def freqFactor (nss : Nat) (fs : ℝ) (N : Nat) (numer denom : List ℝ) (i : Nat) : Res ℂ := do
  let s ← forRange (fun j (s : ℂ × ℂ) => do
    let b ← readAt numer j
    let a ← readAt denom j
    let v := Complex.exp (-Complex.I * ((fs * ((j * i : Nat) : ℝ) / (nss : ℝ) : ℝ) : ℂ))
    .ok (s.1 + b * v, s.2 + a * v)) 0 (N + 1) (0, 0)
  let H := s.1 / s.2
  .ok ⟨|H.re|, |H.im|⟩

end Verif.Signal
