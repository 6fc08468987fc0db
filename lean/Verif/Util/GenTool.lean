import Verif.Util.CreateTool
import Verif.Util.FileMake
import Verif.Util.Sglobal

/-!
# The program `filemake`

`util/filemake.cc` as a whole: what its processes write, and the file at the end. Memory is taken to be enough.
-/

namespace Verif.Gen
open Verif.Rules Verif.Params Verif.Files Verif.Layout Verif.Endian Verif.FP Verif.Scalar Verif.CCreate Verif.Util
open Verif.Signal (readAt)

/-- The number `k` of a trace before its conversion to `float`, `util/filemake.cc` 30 and 36, 71 and 104. It is not
negative for the traces of the file (`Gen.tent_cast` in Props). -/
def tent (nt g : Nat) : Nat := (((nt / 2 : Nat) : Int) - ((-((nt / 2 : Nat) : Int) + g).natAbs : Int)).toNat

/-- The calls of `setPrm` for trace `g`, `util/filemake.cc` 36-45 and 104-113. The line numbers are sums in single
precision, the coordinates in double precision. -/
def row (nt g : Nat) : List (Nat × Value) :=
  (places.map fun q => (q.1, .inl (rnd ((q.2 + single (tent nt g) : Nat) : ℚ)))) ++
    [(26, .inl (single (2400 + single (tent nt g)) : Nat)), (27, .inl (single (1600 + single (tent nt g)) : Nat)),
      (5, .inr (BitVec.ofNat 64 g))]

/-- The loop over the traces of a piece, `util/filemake.cc` 35-46 and 103-114; `num j` is the number of the trace in row
`j`. -/
def fillAt (row : Nat → List (Nat × Value)) (num : Nat → Res Nat) (p : Param ℚ) (j : Nat) : Nat → Res (Param ℚ)
  | 0 => .ok p
  | n + 1 => do
    let g ← num j
    let p ← setItems j (row g) p
    fillAt row num p (j + 1) n

/-- A call that writes traces: where, how many, samples and parameters. `util/filemake.cc` 51 and 119. -/
structure Put where
  pos : Where
  n : Nat
  trc : Arr Byte
  prm : Param ℚ

/-- The loop of `writeContig`, `util/filemake.cc` 31-53. The parameters and the samples of `max` traces are used again for
each piece, all the samples being computed. `bits n` are the bits of the value computed from the number `n` of the sample
(49), in single precision. -/
def contigPuts (bits : Nat → BitVec 32) (nt ns max offset : Nat) : List (Nat × Nat) → Param ℚ → Arr Byte → Res (List Put)
  | [], _, _ => .ok []
  | (i, n) :: l, p, t => do
    let p ← fillAt (row nt) (fun j => .ok (add64 (add64 offset i) j)) p 0 n
    let t ← fillSamples bits (mul64 (add64 offset i) ns) t 0 (mul64 max ns)
    let rest ← contigPuts bits nt ns max offset l p t
    .ok (⟨.start (add64 offset i), n, t, p⟩ :: rest)

/-- The loop of `writeRandom`, `util/filemake.cc` 98-121, with parameters and samples of its own for each piece. -/
def randomPuts (bits : Nat → BitVec 32) (nt ns : Nat) (rule : Rule) (offs : List Nat) : List (Nat × Nat) → Res (List Put)
  | [] => .ok []
  | (i, n) :: l => do
    let p ← fillAt (row nt) (fun j => readAt offs (i + j)) (mk 0 rule n) 0 n
    let first ← readAt offs i
    let t ← fillSamples bits (mul64 first ns) ⟨4 * mul64 n ns, fun _ => 0#8⟩ 0 (mul64 n ns)
    let rest ← randomPuts bits nt ns rule offs l
    .ok (⟨.list ((offs.drop i).take n), n, t, p⟩ :: rest)

/-- Offset, size and the largest size, `util/filemake.cc` 149-166. -/
def shareOf (lob : Bool) (nt P r : Nat) : Res (Nat × Nat × Nat) :=
  if lob then lobdecompose nt P r
  else do
    let all ← Flow.collect (Decomp.blockDecomposition nt P) (List.range P)
    let d ← Decomp.blockDecomposition nt P r
    .ok (d.globalOffset, d.localSize, (all.map Decomp.Dec.localSize).foldl Nat.max 0)

/-- The number of traces for one call, `util/filemake.cc` 169. -/
def perCall (mem ns : Nat) : Nat := mem / add64 (add64 (getDOSz ns) (getDFSz ns)) 8

/-- What process `r` does after the header calls, `util/filemake.cc` 170-177 with 18-58 and 60-127: the pieces it writes and
its writer at the end. `num` are the sizes of all processes. -/
def process (bits : Nat → BitVec 32) (lob random : Bool) (P max nt ns : Nat) (w : W) (num : List Nat) (r : Nat) :
    Res (List Put × W) := do
  let (offset, lnt, biggest) ← shareOf lob nt P r
  let extra ← extraCalls biggest lnt max
  let rule ← ctor [] true true false
  if random then do
    let offs ← randomOffsets nt num r
    let ps ← randomPuts bits nt ns rule offs (pieces lnt max lnt 0)
    let calls := (pieces lnt max lnt 0).map (fun b => (offs.drop b.1).take b.2) ++ List.replicate extra []
    .ok (ps, calls.foldl W.writeList w)
  else do
    let ps ← contigPuts bits nt ns max offset (pieces lnt max lnt 0) (mk 0 rule max) ⟨4 * mul64 max ns, fun _ => 0#8⟩
    let calls := (pieces lnt max lnt 0).map (fun b => (add64 offset b.1, b.2)) ++ List.replicate extra (0, 0)
    .ok (ps, calls.foldl (fun w c => w.writeTrace c.1 c.2) w)

/-- One call reaching the file. `util/filemake.cc` 51 and 119. -/
def put (ns : Nat) (q : Put) (out : Disk) : Res Disk := do
  let (out, _) ← writeTraceT dbl ns q.pos q.n (some q.trc) (some q.prm) 0 out
  .ok out

/-- `FileMake` on `P` processes, `util/filemake.cc` 129-178, with the closing of the file. `isErr` (147) ends the program if
the header calls recorded an error. `sched` gives the order in which the pieces reach the file. -/
def fileMake (bits : Nat → BitVec 32) (sched : List Put → List Put) (lob random : Bool) (P mem ns nt : Nat) (inc : ℚ)
    (out : Disk) : Res Disk := do
  let w := headerCalls nt ns inc
  if w.err then .abort
  else do
    let shares ← Flow.collect (shareOf lob nt P) (List.range P)
    let ps ← Flow.collect (process bits lob random P (perCall mem ns) nt ns w (shares.map fun s => s.2.1)) (List.range P)
    let out ← runBlocks (put w.ns) (sched (ps.flatMap Prod.fst)) out
    close (ps.map Prod.snd) out

/-- `main`, `util/filemake.cc` 180-247, with an output named: the assertion of 242, and the memory in MiB. -/
def filemake (bits : Nat → BitVec 32) (sched : List Put → List Put) (lob random : Bool) (P mebi ns nt : Nat) (inc : ℚ)
    (out : Disk) : Res Disk :=
  if mebi = 0 ∨ inc = 0 then .abort else fileMake bits sched lob random P (mul64 mebi (2 ^ 20)) ns nt inc out

end Verif.Gen
