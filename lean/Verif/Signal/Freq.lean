import Verif.Signal.Design

/-!
`filterFreq`, `src/temporalfilter.cc` 329-374, with the transforms of FFTW in it.
-/

namespace Verif.Signal

open Finset

/-- What FFTW's planner leaves in the array that its plan reads, `src/temporalfilter.cc` 343-345 (`trace`) and 363-365
(`freq`): `none` if it leaves the array alone.  With `FFTW_MEASURE` it tries transforms on the arrays, and the manual of FFTW
promises nothing about their contents afterwards, unless it already knows the size.  The array that a plan writes
is written as a whole, or as far as it is read later, when the plan is executed, so that its contents after planning do not matter. -/
structure Planner where
  trace : Option (List ℝ)
  freq : Option (List ℂ)

/-- `fftwf_plan_dft_r2c_1d` executed, `src/temporalfilter.cc` 343-346: the first `n / 2 + 1` frequencies of `n` samples; the
rest of the array `frequency` (341) keeps its zeros.  Exact arithmetic. -/
noncomputable def r2c (n : Nat) (x : List ℝ) : List ℂ :=
  (List.range (n / 2 + 1)).map (fun k =>
    ∑ j ∈ range n, ((x.getD j 0 : ℝ) : ℂ) * Complex.exp (-(2 * Real.pi * ((j * k : Nat) : ℝ) / (n : ℝ) : ℝ) * Complex.I))
  ++ List.replicate (n - (n / 2 + 1)) 0

/-- `fftwf_plan_dft_c2r_1d` executed, `src/temporalfilter.cc` 363-366: the sum over all `n` frequencies, of which those above
`n / 2` are the conjugates of those below; the imaginary parts at frequency zero and, if `n` is even, at `n / 2` are not used. -/
noncomputable def c2r (n : Nat) (X : List ℂ) : List ℝ :=
  (List.range n).map (fun j =>
    (X.getD 0 0).re
    + ∑ k ∈ range ((n - 1) / 2),
        2 * (X.getD (k + 1) 0 * Complex.exp ((2 * Real.pi * ((j * (k + 1) : Nat) : ℝ) / (n : ℝ) : ℝ) * Complex.I)).re
    + if n % 2 = 0 then (X.getD (n / 2) 0).re * (-1) ^ j else 0)

/-- One round of the loop over the frequencies, `src/temporalfilter.cc` 349-361. -/
noncomputable def freqStep (n : Nat) (fs : ℝ) (N : Nat) (numer denom : List ℝ) (i : Nat) (X : List ℂ) : Res (List ℂ) := do
  let v ← freqFactor n fs N numer denom i
  let x ← readAt X i
  writeAt X i (x * v)

/-- `filterFreq`, `src/temporalfilter.cc` 329-374, on a window of samples; `N` is the order and `p` what planning does to the arrays.
FFTW has no plan for no samples, and the call of a null plan is undefined. -/
noncomputable def filterFreq (p : Planner) (fs : ℝ) (N : Nat) (numer denom trc : List ℝ) : Res (List ℝ) :=
  let n := trc.length
  if n = 0 then .ub
  else do
    let X ← forRange (freqStep n fs N numer denom) 0 (n / 2 + 1) (r2c n (p.trace.getD trc))
    .ok ((c2r n (p.freq.getD X)).map (· / (n : ℝ)))

end Verif.Signal
