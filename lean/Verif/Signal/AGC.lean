import Verif.Signal.Loop

/-!
# Automatic gain control and taper (`src/utils/signal_processing/AGC.cc`, `taper.cc`)

Samples are values of any type with a multiplication.
-/

namespace Verif.Signal

variable {V : Type}

/-- The samples a gain function may address: `len` samples from `start` (`AGC.cc` 55, 64, 78 pass `&signal[start]` and
the length). Samples outside the signal are undefined behaviour. -/
def window (s : List V) (start len : Nat) : Res (List V) :=
  if start + len ≤ s.length then .ok ((s.drop start).take len) else .ub

/-- A `Gain_function` (`Gain_function.h` 24-28): window, target amplitude, centre. The window size is the length of the
window. It can fail an assertion. -/
abbrev GainFn (V : Type) := List V → V → Nat → Res V

/-- `AGC`, `AGC.cc` 22-86. `size_t` subtractions wrap. -/
def agc [Zero V] [Mul V] (signal : List V) (gainFn : GainFn V) (windowSize : Nat) (target : V) : Res (List V) :=
  let n := signal.length
  let w := if windowSize % 2 = 0 then windowSize + 1 else windowSize
  if ¬ n > w then .abort
  else
    let win2 := w / 2
    if ¬ w = 2 * win2 + 1 then .abort
    else do
      let gain := List.replicate n (0 : V)
      -- 42-58
      let gain ← forRange (fun j gain => do
        let win ← window signal 0 (win2 + j + 1)
        let g ← gainFn win target j
        writeAt gain j g) 0 win2 gain
      -- 62-65
      let gain ← forRange (fun j gain => do
        let win ← window signal (sub64 j win2) w
        let g ← gainFn win target win2
        writeAt gain j g) win2 (sub64 n win2 - win2) gain
      -- 68-80
      let gain ← forRange (fun j gain => do
        let dist := sub64 (sub64 n 1) j
        let win ← window signal (sub64 j win2) (win2 + dist + 1)
        let g ← gainFn win target win2
        writeAt gain j g) (sub64 n win2) (n - sub64 n win2) gain
      -- 83-85
      forRange (fun j signal => do
        let s ← readAt signal j
        let g ← readAt gain j
        writeAt signal j (s * g)) 0 n signal

/-- `taper`, `taper.cc` 16-67, of a signal whose first sample is not zero, or the part of the function after the muted
start: the assertion of line 23 and the loops of 55-66. The ramp takes whole numbers (they are converted to `float`,
exactly up to `2^24`). -/
def taperLoops [Mul V] (signal : List V) (f : Nat → Nat → V) (left right : Nat) : Res (List V) := do
  let signal ← forRange (fun j signal => do
    let s ← readAt signal j
    writeAt signal j (s * f (j + 1) left)) 0 left signal
  forRange (fun j signal => do
    let offset := sub64 signal.length right
    let s ← readAt signal (offset + j)
    writeAt signal (offset + j) (s * f (sub64 right j) right)) 0 right signal

/-- `taper`, `taper.cc` 16-67. `isZero` is the comparison with 0 of lines 27 and 30. The recursive call of line 49 works
on the signal from its first non-zero sample; the samples before it stay. `fuel` bounds the depth of the recursion, which
is at most two. -/
def taper [Mul V] (isZero : V → Bool) (f : Nat → Nat → V) : Nat → List V → Nat → Nat → Res (List V)
  | 0, _, _, _ => .ub
  | fuel + 1, signal, left, right =>
    if ¬ (signal.length > left ∧ signal.length > right) then .abort
    else do
      let s0 ← readAt signal 0
      if isZero s0 then
        let muted := signal.takeWhile isZero
        let trunc := signal.dropWhile isZero
        let t0 ← readAt trunc 0
        if isZero t0 then .abort
        else do
          let out ← taper isZero f fuel trunc (min left trunc.length) (min right trunc.length)
          .ok (muted ++ out)
      else taperLoops signal f left right

end Verif.Signal
