import Verif.Basic
import Mathlib.Order.Defs.LinearOrder

/-!
# 4D binning (`util/4dcore.cc`, `util/4dio.hh`, `util/fourdbin.cc`)

For every trace of a first file the tool looks for the trace of a second file with the smallest difference
criterion.  The numbers are kept abstract: a linear order `K` with the two functions `x - dsrmax` and `x + dsrmax`
and a criterion, so that the results hold for exact numbers as well as for rounded ones (without NaN).
-/

namespace Verif.Util

/-- What the search needs to know about traces: `xs` is the x coordinate of the source, `tn` the trace number and
`crit` the criterion of a pair (`util/4dcore.cc:203-220` with the constraint of `:243-248` or `:327-333` on the line
numbers, which makes it `big`); `lo x` stands for `x - dsrmax`, `hi x` for `x + dsrmax`, `dmax` for `dsrmax` and
`big` for `std::numeric_limits<float>::max()`. -/
structure Geo (K T : Type) where
  xs : T → K
  tn : T → Nat
  crit : T → T → K
  lo : K → K
  hi : K → K
  dmax : K
  big : K

variable {K T : Type} [LinearOrder K]

/-- `allocSz` of `Coords` (`util/4dio.hh:55`). -/
def allocSz (n : Nat) : Nat := (n + 32) / 32 * 32

/-- `crd->xSrc[i]`: behind the coordinates the allocated entries hold the largest number (`util/4dio.hh:55-81`);
behind those the read is out of bounds. -/
def xread (g : Geo K T) (c : List T) (i : Nat) : Res K :=
  match c[i]? with
  | some t => .ok (g.xs t)
  | none => if i < allocSz c.length then .ok g.big else .ub

/-- `crd->xSrc[i - 1LU]`: for `i = 0` the index wraps around and the read is out of bounds
(`util/4dcore.cc:287`, `:293`, `:457`, `:461`). -/
def xreadPrev (g : Geo K T) (c : List T) : Nat → Res K
  | 0 => .ub
  | i + 1 => xread g c i

/-- `for (; s < end && xSrc[s] < bound; s++)` with `n = end - s` (`util/4dcore.cc:284-286`, `:290-292`). -/
def skipUp (g : Geo K T) (c : List T) (bound : K) : Nat → Nat → Res Nat
  | 0, s => .ok s
  | n + 1, s => do
    let x ← xread g c s
    if x < bound then skipUp g c bound n (s + 1) else .ok s

/-- `for (; e >= low && xSrc[e] > bound; e--)`; decrementing zero wraps around, after which the loop reads far out of
bounds (`util/4dcore.cc:287-289`, `:293-295`). -/
def skipDown (g : Geo K T) (c : List T) (bound : K) (low : Nat) : Nat → Res Nat
  | 0 =>
    if low ≤ 0 then do
      let x ← xread g c 0
      if bound < x then .ub else .ok 0
    else .ok 0
  | e + 1 =>
    if low ≤ e + 1 then do
      let x ← xread g c (e + 1)
      if bound < x then skipDown g c bound low e else .ok (e + 1)
    else .ok (e + 1)

/-- The ranges `(lstart, lend, rstart, rend)` left by the four loops (`util/4dcore.cc:277-295`), before the alignment.
The bound of the third loop is only read when its first condition holds; reading it earlier makes no difference, as
`rstart` is at most the number of coordinates and that entry is allocated. -/
def ranges (g : Geo K T) (c1 c2 : List T) : Res (Nat × Nat × Nat × Nat) := do
  let first ← xread g c1 0
  let rstart ← skipUp g c2 (g.lo first) c2.length 0
  let last ← xreadPrev g c1 c1.length
  let rend ← skipDown g c2 (g.hi last) rstart c2.length
  let x2 ← xread g c2 rstart
  let lstart ← skipUp g c1 (g.lo x2) c1.length 0
  let x2e ← xreadPrev g c2 rend
  let lend ← skipDown g c1 (g.hi x2e) lstart c1.length
  .ok (lstart, lend, rstart, rend)

/-- The inner loop for one trace of the first file: the trace number and the criterion found so far
(`util/4dcore.cc:320-339`). -/
def scan (g : Geo K T) (t : T) (s : Nat × K) (c : List T) : Nat × K :=
  c.foldl (fun s u => (if g.crit t u < s.2 then g.tn u else s.1, min (g.crit t u) s.2)) s

/-- `update` (`util/4dcore.cc:269-358`) on the pairs of `min` and `minrs`; the returned statistics are left out. -/
def update (g : Geo K T) (c1 c2 : List T) (st : List (Nat × K)) : Res (List (Nat × K)) := do
  let (lstart, lend, rstart, rend) ← ranges g c1 c2
  let lstart := lstart / 32 * 32
  .ok ((c1.zip st).mapIdx fun i p =>
    if lstart ≤ i ∧ i < lend then scan g p.1 p.2 ((c2.drop rstart).take (rend - rstart)) else p.2)

/-- `initUpdate` (`util/4dcore.cc:236-252`): every trace is compared with the first local trace of the second file. -/
def initUpdate (g : Geo K T) (c1 : List T) (h : T) : List (Nat × K) :=
  c1.map fun t => (g.tn h, g.crit t h)

/-- Whether a process with the second-file coordinates `c2` is contacted for the first-file coordinates `c1`
(`util/4dcore.cc:454-461`, `:473-477`). -/
def isActive (g : Geo K T) (c1 c2 : List T) : Res Bool := do
  let xsmin ← xread g c2 0
  let xsmax ← xreadPrev g c2 c2.length
  let xslmin ← xread g c1 0
  let xslmax ← xreadPrev g c1 c1.length
  .ok (decide (g.lo xsmin ≤ xslmax) && decide (xslmin ≤ g.hi xsmax))

/-- The main loop of `calc4DBin` (`util/4dcore.cc:473-477`, `:506-532`) on one process: the other processes in turn,
those that are not active left out. -/
def rounds (g : Geo K T) (c1 : List T) : List (List T) → List (Nat × K) → Res (List (Nat × K))
  | [], st => .ok st
  | c2 :: rest, st => do
    let a ← isActive g c1 c2
    let st ← if a then update g c1 c2 st else .ok st
    rounds g c1 rest st

/-- `calc4DBin` on process `r` (`util/4dcore.cc:440-554`) with the coordinates `c1` of the first file; `c2s` are the
coordinates of the second file on all processes.  The transfer of the coordinates is taken to deliver them, see
`getsInside` for the windows. -/
def calc4DBin (g : Geo K T) (r : Nat) (c1 : List T) (c2s : List (List T)) : Res (List (Nat × K)) :=
  match (c2s[r]?).bind List.head? with
  | none => .ub
  | some h => rounds g c1 c2s (initUpdate g c1 h)

/-- The pairs handed to the output (`util/fourdbin.cc:127-137`): trace number of the first file, of the second file,
and the criterion. -/
def matched (g : Geo K T) (c1 : List T) (st : List (Nat × K)) : List (Nat × Nat × K) :=
  (c1.zip st).filterMap fun p => if p.2.2 ≤ g.dmax then some (g.tn p.1, p.2.1, p.2.2) else none

/-- Whether `MPI_Get` of `n` elements of `w` bytes stays within the window made by `createCoordsWin`, which has as many
*bytes* as there are coordinates (`util/4dcore.cc:105-123`, `:147-172`). -/
def getsInside (n w : Nat) : Bool := decide (n * w ≤ n)

/-- Coordinates of one trace as used by `dsr`. `util/4dcore.cc` 203-220. -/
structure Pt (K : Type) where
  xs : K
  ys : K
  xr : K
  yr : K
  tn : Nat

/-- `dsr` (`util/4dcore.cc:203-220`) with the length `h` of the hypotenuse (`:84-88`). -/
def dsr [Sub K] [Add K] (h : K → K → K) (a b : Pt K) : K :=
  min (h (a.xs - b.xs) (a.ys - b.ys) + h (a.xr - b.xr) (a.yr - b.yr))
    (h (a.xs - b.xr) (a.ys - b.yr) + h (a.xr - b.xs) (a.yr - b.ys))

/-- The search without the constraint on lines (`ixline = false`). `util/4dcore.cc` 222-330. -/
def geoPt [Sub K] [Add K] (h : K → K → K) (dmax big : K) : Geo K (Pt K) where
  xs := Pt.xs
  tn := Pt.tn
  crit := dsr h
  lo x := x - dmax
  hi x := x + dmax
  dmax := dmax
  big := big

end Verif.Util
