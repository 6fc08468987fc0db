import Verif.Signal.GainSingle
import Verif.Signal.Filter

/-!
# Signal processing in the default build

`CMakeLists.txt` 93-105 chooses the build type `Release` unless another one is given. CMake then defines `NDEBUG`, and the
assertions are not in the program: it goes on where the functions of `GainSingle.lean`, `AGC.lean` and `Filter.lean` end in
`abort`.
-/

namespace Verif.Release
open Verif.Signal Verif.FP32

/-- `rectangular_RMS_gain`, `Gain_function.cc` 20-36, without the assertion of 30. -/
def rectangularR (sqrtf : ℚ → ℚ) (win : List F32) (target : F32) (_center : Nat) : Res F32 :=
  let amp := win.foldl (fun amp x => amp + x * x) 0
  let num := win.countP fun x => decide (x ≠ 0)
  .ok (target / F32.sqrt sqrtf (amp / F32.of ((max 1 num : Nat) : ℚ)))

/-- `triangular_RMS_gain`, `Gain_function.cc` 48-127, without the assertions of 54, 55 and 121. -/
def triangularR (sqrtf : ℚ → ℚ) (win : List F32) (target : F32) (center : Nat) : Res F32 := do
  let left := center
  let right := sub64 (sub64 win.length 1) center
  let half := F32.of ((max left right : Nat) : ℚ)
  let amp ← forRange (fun j amp => do
    let x ← readAt win j
    let dist := if j > center then j - center else center - j
    let scaling := 1 - F32.of (dist : ℚ) / half
    let scaled := x * scaling
    .ok (amp + scaled * scaled)) 0 win.length (0 : F32)
  let num := win.countP fun x => decide (x ≠ 0)
  .ok (target / F32.sqrt sqrtf (amp / F32.of ((max 1 num : Nat) : ℚ)))

/-- `mean_abs_gain`, `Gain_function.cc` 140-156, without the assertions of 146 and 150. -/
def meanAbsR (win : List F32) (target : F32) (_center : Nat) : Res F32 :=
  let amp := win.foldl (· + ·) 0
  let num := win.countP fun x => decide (x ≠ 0)
  .ok (target / (absF amp / F32.of ((max 1 num : Nat) : ℚ)))

/-- `median_gain`, `Gain_function.cc` 168-191, without the assertions of 181 and 187. -/
def medianR (win : List F32) (target : F32) (_center : Nat) : Res F32 :=
  if win.length > 1 ∧ F32.nan ∈ win then .ub
  else
    let tmp := win.insertionSort fun a b => ltF b a = false
    let w := win.length
    if w % 2 = 0 then do
      let a ← readAt tmp (w / 2)
      let b ← readAt tmp (w / 2 + 1)
      .ok (target / ((a + b) / F32.num 2))
    else do
      let amp ← readAt tmp (w / 2)
      .ok (target / amp)

variable {V : Type}

/-- `AGC`, `AGC.cc` 22-86, without the assertions of 31 and 38. -/
def agcR [Zero V] [Mul V] (signal : List V) (gainFn : GainFn V) (windowSize : Nat) (target : V) : Res (List V) := do
  let n := signal.length
  let w := if windowSize % 2 = 0 then windowSize + 1 else windowSize
  let win2 := w / 2
  let gain := List.replicate n (0 : V)
  let gain ← forRange (fun j gain => do
    let win ← window signal 0 (win2 + j + 1)
    let g ← gainFn win target j
    writeAt gain j g) 0 win2 gain
  let gain ← forRange (fun j gain => do
    let win ← window signal (sub64 j win2) w
    let g ← gainFn win target win2
    writeAt gain j g) win2 (sub64 n win2 - win2) gain
  let gain ← forRange (fun j gain => do
    let dist := sub64 (sub64 n 1) j
    let win ← window signal (sub64 j win2) (win2 + dist + 1)
    let g ← gainFn win target win2
    writeAt gain j g) (sub64 n win2) (n - sub64 n win2) gain
  forRange (fun j signal => do
    let s ← readAt signal j
    let g ← readAt gain j
    writeAt signal j (s * g)) 0 n signal

/-- `taper`, `taper.cc` 16-67, without the assertions of 23 and 34. The sample looked at in 34 is not read then; the call of 49
for a muted signal reads it in 27. -/
def taperR [Mul V] (isZero : V → Bool) (f : Nat → Nat → V) : Nat → List V → Nat → Nat → Res (List V)
  | 0, _, _, _ => .ub
  | fuel + 1, signal, left, right => do
    let s0 ← readAt signal 0
    if isZero s0 then
      let muted := signal.takeWhile isZero
      let trunc := signal.dropWhile isZero
      let out ← taperR isZero f fuel trunc (min left trunc.length) (min right trunc.length)
      .ok (muted ++ out)
    else taperLoops signal f left right

/-- `temporalFilter`, `temporalfilter.cc` 480-529, the handling of windows without the assertion of 497. -/
def temporalFilterR [Zero V] (nt ns : Nat) (trc : List V) (filter : Nat → List V → Res (List V)) (nw winCntr : Nat) :
    Res (List V) :=
  let nw := if nw = 0 ∨ nw > ns then ns else nw
  let nw := if nw % 2 ≠ 0 then nw else sub64 nw 1
  let winCntr := if winCntr = 0 then ns / 2 else winCntr
  forRange (windowStep ns filter nw winCntr) 0 nt trc

end Verif.Release
