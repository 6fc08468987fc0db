import Verif.Util.FileMake
import Verif.Util.FourD
import Verif.Decomp.Model

/-!
# Input and output of 4D binning (`util/4dio.cc`)
-/

namespace Verif.Util

/-- `memlim` of `getCoords` (`util/4dio.cc:56-58`), eight bytes per `Floating_point`. -/
def coordMem (biggest : Nat) : Nat := sub64 (2 ^ 31) (mul64 (4 * biggest) 8)

/-- The traces per call of the first phase (`util/4dio.cc:59`): the rule has two indices and one float
(`src/Rule.cc:58-62`, `:372-378`), 24 bytes, and the header has 240. -/
def firstMax (biggest : Nat) : Nat := coordMem biggest / (24 + 240)

/-- The traces per call of the second phase (`util/4dio.cc:107-120`): two indices, four floats and with `ixline` two
integers, and 16 more bytes. -/
def secondMax (ixline : Bool) (biggest : Nat) : Nat :=
  coordMem biggest / ((if ixline then 64 else 48) + 240 + 16)

/-- The numbers of collective calls a process with `lnt` traces makes in the two phases of `getCoords`
(`util/4dio.cc:65-85` and `:122-159`): the pieces and the `extra` calls computed once for the first phase.  A limit of zero
in the second phase makes its loop endless, here `abort`. -/
def coordCalls (ixline : Bool) (lnt biggest : Nat) : Res (Nat × Nat) := do
  let max := firstMax biggest
  let extra ← extraCalls biggest lnt max
  let max2 := secondMax ixline biggest
  if max2 = 0 ∧ 0 < lnt then .abort
  else .ok ((pieces lnt max lnt 0).length + extra, (pieces lnt max2 lnt 0).length + extra)

/-- The prefix sum of `outputNonMono` (`util/4dio.cc:201-213`): first output trace of process `rank`, total and largest
share; `i` is the process looked at. -/
def outShares (rank : Nat) : Nat → List Nat → Nat × Nat × Nat → Nat × Nat × Nat
  | _, [], s => s
  | i, n :: ns, (offset, sz, biggest) =>
    outShares rank (i + 1) ns (if i = rank then sz else offset, add64 sz n, max biggest n)

/-- The traces written by process `rank` (`util/4dio.cc:240-249`): position in the output and number in the source file;
`lists` holds the lists of all processes. -/
def outWrites (lists : List (List Nat)) (rank limit : Nat) : List (Nat × Nat) :=
  let list := lists.getD rank []
  let offset := (outShares rank 0 (lists.map List.length) (0, 0, 0)).1
  (pieces list.length limit list.length 0).flatMap fun (i, rblock) =>
    (List.range rblock).map fun j => (add64 (add64 offset i) j, list.getD (i + j) 0)

end Verif.Util
