import Verif.Signal.Loop
import Mathlib.Algebra.Field.Defs

/-!
# Temporal filter (`src/temporalfilter.cc`)

Samples and coefficients are elements of any type with the operations: a ring or field for exact arithmetic, floats
with `FP/Extended.lean`. The design of the filter (`makeFilter`, `filterOrder`) and the factor of the frequency domain are in `Signal/Design.lean`.
-/

namespace Verif.Signal

section
variable {R K : Type}

/-- One step of the inner loop of `expandPoly`, `temporalfilter.cc` 63-65. -/
def expandStep [CommRing R] (coef : List R) (i j : Nat) (v : List R) : Res (List R) := do
  let a ← readAt v (i - j)
  let c ← readAt coef i
  let b ← readAt v (i - j - 1)
  writeAt v (i - j) (a * -c + b)

/-- `expandPoly`, `temporalfilter.cc` 51-72. `real` is the real part. The indices `i - j` and `i - j - 1` do not wrap
since `j < i`. -/
def expandPoly [CommRing R] (real : R → K) (coef : List R) : Res (List K) := do
  let nvx := coef.length
  let v := List.replicate (nvx + 1) (0 : R)
  let c0 ← readAt coef 0
  let v ← writeAt v 0 (-c0)
  let v ← writeAt v 1 1
  let v ← forRange (fun i v => do
    let v ← writeAt v (i + 1) 1
    let v ← forRange (expandStep coef i) 0 i v
    let a ← readAt v 0
    let c ← readAt coef i
    writeAt v 0 (a * -c)) 1 (nvx - 1) v
  .ok (v.map real)

end

section
variable {K : Type}

/-- One step of the inner loops of `IIR`, `temporalfilter.cc` 399-401 and 406-408; `j ≤ i`, so that `i - j` does not
wrap. -/
def iirStep [Add K] [Sub K] [Mul K] (b a x : List K) (i j : Nat) (y : List K) : Res (List K) := do
  let yi ← readAt y i
  let bj ← readAt b j
  let xj ← readAt x (i - j)
  let aj ← readAt a j
  let yj ← readAt y (i - j)
  writeAt y i (yi + (bj * xj - aj * yj))

/-- One of the first samples of `IIR`, `temporalfilter.cc` 398-401. -/
def iirHead [Add K] [Sub K] [Mul K] (b a x zi : List K) (i : Nat) (y : List K) : Res (List K) := do
  let b0 ← readAt b 0
  let xi ← readAt x i
  let z ← readAt zi i
  let y ← writeAt y i (b0 * xi + z)
  forRange (iirStep b a x i) 1 i y

/-- One of the other samples of `IIR`, `temporalfilter.cc` 405-408. -/
def iirTail [Add K] [Sub K] [Mul K] (N : Nat) (b a x : List K) (i : Nat) (y : List K) : Res (List K) := do
  let b0 ← readAt b 0
  let xi ← readAt x i
  let y ← writeAt y i (b0 * xi)
  forRange (iirStep b a x i) 1 N y

/-- `IIR`, `temporalfilter.cc` 387-410. -/
def iir [Add K] [Sub K] [Mul K] (N ns : Nat) (b a x y zi : List K) : Res (List K) := do
  let b0 ← readAt b 0
  let x0 ← readAt x 0
  let z0 ← readAt zi 0
  let y ← writeAt y 0 (b0 * x0 + z0)
  let y ← forRange (iirHead b a x zi) 1 (N - 1) y
  forRange (iirTail N b a x) N (ns - N) y

/-- `PadType`, `include/ExSeisDat/PIOL/operations/temporalfilter.hh` 47-59. -/
inductive Pad where
  | zero | symmetric | replicate | cyclic
deriving DecidableEq, Repr

/-- `getPad`, `temporalfilter.cc` 294-327. `size_t` subtractions wrap. -/
def padding [Zero K] (p : Pad) (trc : List K) (N nw j : Nat) : Res K :=
  match p with
  | .zero => .ok 0
  | .symmetric => if j ≤ nw then readAt trc (sub64 N j) else readAt trc (sub64 (2 * (nw + N)) j)
  | .replicate => if j ≤ nw then readAt trc 0 else readAt trc nw
  | .cyclic => if j ≤ nw then readAt trc (sub64 nw (sub64 N j)) else readAt trc (sub64 (sub64 j nw) N)

/-- One round of the first loop of `filterTime`, `temporalfilter.cc` 422-426; `nw` is at least one (493-494). -/
def padStep [Zero K] (p : Pad) (nw : Nat) (trc : List K) (numTail i : Nat) (trcX : List K) : Res (List K) := do
  let v ← padding p trc (3 * (numTail + 1)) nw i
  let trcX ← writeAt trcX i v
  let v ← padding p trc (3 * (numTail + 1)) (nw - 1) (i + 3 * numTail + nw)
  writeAt trcX (i + 3 * numTail + nw) v

/-- Copy `n` values of `src` from `start` on into `dst` from `d0` on, one by one: the loops `temporalfilter.cc` 428-430,
508-510 and 525-527. The indices are those of the code modulo `2^64`. -/
def copyLoop (n : Nat) (src : List K) (start : Nat) (dst : List K) (d0 : Nat) : Res (List K) :=
  forRange (fun i dst => do
    let v ← readAt src (add64 start i)
    writeAt dst (add64 d0 i) v) 0 n dst

/-- The padded trace of `filterTime`, `temporalfilter.cc` 420-430. -/
def padTrace [Zero K] (p : Pad) (nw : Nat) (trc : List K) (numTail : Nat) : Res (List K) := do
  let trcX ← forRange (padStep p nw trc numTail) 0 (3 * (numTail + 1)) (List.replicate (nw + 6 * (numTail + 1)) (0 : K))
  copyLoop nw trc 0 trcX (3 * (numTail + 1))

/-- The sums of `filterTime`, `temporalfilter.cc` 436-441: `B` and `Imin`. -/
def sumStep [Add K] [Sub K] [Mul K] (numer denom : List K) (i : Nat) (s : K × K) : Res (K × K) := do
  let ni ← readAt numer i
  let di ← readAt denom i
  let n0 ← readAt numer 0
  .ok (s.1 + (ni - di * n0), s.2 + di)

/-- One round of the loop `temporalfilter.cc` 448-452; the state is `a`, `c` and `zi`. -/
def ziStep [Add K] [Sub K] [Mul K] (numer denom : List K) (i : Nat) (s : K × K × List K) : Res (K × K × List K) := do
  let di ← readAt denom i
  let ni ← readAt numer i
  let n0 ← readAt numer 0
  let z0 ← readAt s.2.2 0
  let zi ← writeAt s.2.2 i ((s.1 + di) * z0 - (s.2.1 + (ni - di * n0)))
  .ok (s.1 + di, s.2.1 + (ni - di * n0), zi)

/-- The initial conditions of `filterTime` for a unit first sample, `temporalfilter.cc` 432-452. In a
field a division by zero gives zero; for floats it is an infinity or not-a-number. -/
def startZ [Zero K] [One K] [Add K] [Sub K] [Mul K] [Div K] (numTail : Nat) (numer denom : List K) : Res (List K) := do
  let s ← forRange (sumStep numer denom) 1 numTail (0, 1)
  let zi ← writeAt (List.replicate numTail (0 : K)) 0 (s.1 / s.2)
  let t ← forRange (ziStep numer denom) 1 (numTail - 1) (1, 0, zi)
  .ok t.2.2

/-- Scaling of the initial conditions, `temporalfilter.cc` 454-456 and 467-469 (the first into a new array, the second
in place). -/
def scaleZ [Mul K] (numTail : Nat) (zi : List K) (f : K) : Res (List K) :=
  forRange (fun i (out : List K) => do
    let z ← readAt zi i
    writeAt out i (z * f)) 0 numTail zi

/-- One round of the reversal between the passes, `temporalfilter.cc` 462-465. -/
def turnStep [Zero K] (len i : Nat) (s : List K × List K) : Res (List K × List K) := do
  let v ← readAt s.2 (len - i - 1)
  let x ← writeAt s.1 i v
  let y ← writeAt s.2 (len - 1 - i) 0
  .ok (x, y)

/-- `filterTime`, `temporalfilter.cc` 412-478. -/
def filterTime [Zero K] [One K] [Add K] [Sub K] [Mul K] [Div K] (p : Pad) (nw : Nat) (trc : List K) (numTail : Nat) (numer denom : List K) :
    Res (List K) := do
  let len := nw + 6 * (numTail + 1)
  let trcX ← padTrace p nw trc numTail
  let trcY := List.replicate len (0 : K)
  let zi ← startZ numTail numer denom
  let x0 ← readAt trcX 0
  let ziF ← scaleZ numTail zi x0
  let trcY ← iir numTail len numer denom trcX trcY ziF
  let t ← forRange (turnStep len) 0 len (trcX, trcY)
  let x0 ← readAt t.1 0
  let zi ← scaleZ numTail zi x0
  let trcY ← iir numTail len numer denom t.1 t.2 zi
  forRange (fun i trc => do
    let v ← readAt trcY (nw + 3 * (numTail + 1) - i - 1)
    writeAt trc i v) 0 nw trc

/-- One trace of `temporalFilter`, `temporalfilter.cc` 506-528. -/
def windowStep [Zero K] (ns : Nat) (filter : Nat → List K → Res (List K)) (nw winCntr i : Nat) (trc : List K) :
    Res (List K) := do
  let w ← copyLoop nw trc (add64 (i * ns) (sub64 winCntr (nw / 2))) (List.replicate nw (0 : K)) 0
  let w ← filter nw w
  copyLoop nw w 0 trc (add64 (i * ns) (sub64 winCntr (nw / 2)))

/-- `temporalFilter`, `temporalfilter.cc` 480-529, the handling of windows. `trc` holds `nt` traces of `ns` samples;
`filter` filters one window in place, given its length (513 or 519). `size_t` arithmetic wraps. -/
def temporalFilter [Zero K] (nt ns : Nat) (trc : List K) (filter : Nat → List K → Res (List K)) (nw winCntr : Nat) :
    Res (List K) :=
  let nw := if nw = 0 ∨ nw > ns then ns else nw
  let nw := if nw % 2 ≠ 0 then nw else sub64 nw 1
  let winCntr := if winCntr = 0 then ns / 2 else winCntr
  if ¬ winCntr < ns then .abort
  else
    forRange (windowStep ns filter nw winCntr) 0 nt trc

end
end Verif.Signal
