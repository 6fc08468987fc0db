import Verif.Signal.Loop

/-!
# The test-file generator `util/filemake.cc`
-/

namespace Verif.Util
open Verif.Signal

/-- The variables of the loop that deals out trace numbers, `util/filemake.cc` 73-80: traces left for each process, traces
dealt, own list and its fill. -/
structure Deal where
  num : List Nat
  offcount : Nat
  offset : List Nat
  t : Nat
  deriving Repr, DecidableEq

/-- One round of the inner loop, `util/filemake.cc` 85-94. -/
def dealStep (rank j : Nat) (s : Deal) : Res Deal :=
  if j ≠ rank then do
    let n ← readAt s.num j
    if n ≠ 0 then .ok { s with num := s.num.set j (n - 1), offcount := s.offcount + 1 } else .ok s
  else do
    let n ← readAt s.num rank
    let offset ← writeAt s.offset s.t s.offcount
    .ok { num := s.num.set rank (sub64 n 1), offcount := s.offcount + 1, offset := offset, t := s.t + 1 }

/-- The outer loop, `util/filemake.cc` 83-96. The first argument bounds the rounds, running out of it is `abort`. -/
def dealLoop : Nat → Nat → Nat → Deal → Res Deal
  | 0, _, _, _ => .abort
  | fuel + 1, nt, rank, s => do
    let n ← readAt s.num rank
    if n > 0 ∧ s.offcount < nt then do
      let s ← forRange (dealStep rank) 0 s.num.length s
      dealLoop fuel nt rank s
    else .ok s

/-- The list of trace numbers of process `rank` in scattered mode, `util/filemake.cc` 73-96; `num` are the gathered
numbers of traces of all processes. Every round takes one of the process's own traces, so the rounds are bounded. -/
def randomOffsets (nt : Nat) (num : List Nat) (rank : Nat) : Res (List Nat) := do
  let lnt ← readAt num rank
  let s ← dealLoop (lnt + 1) nt rank ⟨num, 0, List.replicate lnt 0, 0⟩
  .ok s.offset

/-- The pieces of the write loops, `util/filemake.cc` 33-34 and 98-99: first element and count of each. The first argument
bounds the rounds (`i` grows by `max`, not zero). -/
def pieces (lnt max : Nat) : Nat → Nat → List (Nat × Nat)
  | 0, _ => []
  | fuel + 1, i => if i < lnt then (i, if i + max < lnt then max else lnt - i) :: pieces lnt max fuel (i + max) else []

/-- The number of empty calls at the end, `util/filemake.cc` 170-171; a limit below the size of a trace makes `max` zero
and the division undefined. -/
def extraCalls (biggest lnt max : Nat) : Res Nat :=
  if max = 0 then .ub
  else .ok (sub64 (biggest / max + if biggest % max > 0 then 1 else 0) (lnt / max + if lnt % max > 0 then 1 else 0))

/-- The traces a contiguous writer writes, `util/filemake.cc` 33-53: trace number, and for each sample the number from
which its value is computed (48-49; only the traces written are shown). -/
def contigTraces (offset ns lnt max : Nat) : List (Nat × List Nat) :=
  (pieces lnt max lnt 0).flatMap fun (i, rblock) =>
    (List.range rblock).map fun j => (offset + i + j, (List.range ns).map fun s => (offset + i) * ns + (j * ns + s))

/-- The traces a scattered writer writes, `util/filemake.cc` 98-121. -/
def randomTraces (offset : List Nat) (ns max : Nat) : List (Nat × List Nat) :=
  (pieces offset.length max offset.length 0).flatMap fun (i, rblock) =>
    (List.range rblock).map fun j =>
      (offset.getD (i + j) 0, (List.range ns).map fun s => offset.getD i 0 * ns + (j * ns + s))

end Verif.Util
