import Verif.Util.FourDIO
import Verif.Flow.Output

/-!
# The output files of 4D binning (`util/4dio.cc` 177-259, `util/fourdbin.cc` 125-157)

The source and the output are different files. The messages to the terminal, the barriers and the restart file of the
verbose mode (`fourdbin.cc` 139-149) are left out.
-/

namespace Verif.FourDOut
open Verif.Rules Verif.Params Verif.Files Verif.Endian Verif.Layout Verif.Util Verif.Flow

variable {F K : Type}

/-- `PIOL_META_dsdr`, `Meta.h` 120. -/
def dsdr : Nat := 30

/-- The rule, `util/4dio.cc` 186-194; `PIOL_TR_SrcMeas` and `PIOL_TR_TimeScal` are bytes 225 and 215, `Tr.h` 138-141. -/
def outRule (printDsr : Bool) : Res Rule := do
  let r ← ctor [COPY] true false false
  if printDsr then addFloat r dsdr 225 215 else .ok r

/-- The traces of a block, `util/4dio.cc` 216-218. -/
def outMax (ns ext : Nat) : Nat := 2 ^ 30 / add64 (mul64 4 (getDOSz ns)) (mul64 4 ext)

/-- The loop over a block that sets the difference criterion, `util/4dio.cc` 243-245, from row `j` for `n` rows; `i` is
the first trace of the block. -/
def setDsr (cvd : Conv F K) (minrs : List K) (i : Nat) (p : Param F) (j : Nat) : Nat → Res (Param F)
  | 0 => .ok p
  | n + 1 =>
    match minrs[i + j]? with
    | none => .ub
    | some v => do
      let p ← setPrm cvd j dsdr v p
      setDsr cvd minrs i p (j + 1) n

/-- What a process hands to `writeTrace`, `util/4dio.cc` 247: first trace, number of traces, samples and parameters. -/
structure Put (F : Type) where
  pos : Nat
  n : Nat
  trc : Arr Byte
  prm : Param F

/-- The loop over the blocks of one process, `util/4dio.cc` 239-248, up to the calls of `writeTrace`. `t` and `p` are the
buffers, which go from block to block; `idx` is `getSortIndex`, `src/sort.cc` 29-37. -/
def blockPuts (ops : FloatOps F) (cv : Conv F (BitVec 64)) (cvd : Conv F K) (zero : F) (idx : List Nat → List Nat)
    (printDsr ibm : Bool) (ns : Nat) (d : Disk) (list : List Nat) (minrs : List K) (offset : Nat) :
    List (Nat × Nat) → Arr Byte → Param F → Res (List (Put F))
  | [], _, _ => .ok []
  | (i, n) :: l, t, p => do
    let offs := (list.drop i).take n
    let q ← readNonMonotonic ops cv zero ibm ns offs (idx offs) (some t) (some p) 0 d
    match q.1, q.2 with
    | some t, some p => do
      let p ← if printDsr then setDsr cvd minrs i p 0 n else .ok p
      let rest ← blockPuts ops cv cvd zero idx printDsr ibm ns d list minrs offset l t p
      .ok (⟨add64 offset i, n, t, p⟩ :: rest)
    | _, _ => .ub

/-- The shares of all processes, `util/4dio.cc` 201-214: first trace of process `r`, total and largest number. -/
def sharesOf (lists : List (List Nat × List K)) (r : Nat) : Nat × Nat × Nat :=
  outShares r 0 (lists.map fun l => l.1.length) (0, 0, 0)

/-- All blocks of process `r`, `util/4dio.cc` 227-248. -/
def procPuts (ops : FloatOps F) (cv : Conv F (BitVec 64)) (cvd : Conv F K) (zero : F) (idx : List Nat → List Nat)
    (printDsr ibm : Bool) (rule : Rule) (ns max : Nat) (d : Disk) (lists : List (List Nat × List K)) (r : Nat) :
    Res (List (Put F)) :=
  let list := (lists.getD r ([], [])).1
  let minrs := (lists.getD r ([], [])).2
  let n := Nat.min list.length max
  blockPuts ops cv cvd zero idx printDsr ibm ns d list minrs (sharesOf lists r).1 (pieces list.length max list.length 0)
    (.fill (4 * (ns * n)) 0#8) (mk zero rule n)

/-- The calls of `writeTrace` one after the other, in the order in which they reach the file. `util/4dio.cc` 247. -/
def putAll (ops : FloatOps F) (ns : Nat) : List (Put F) → Disk → Res Disk
  | [], out => .ok out
  | q :: l, out => do
    let (out, _) ← writeTraceT ops ns (.start q.pos) q.n (some q.trc) (some q.prm) 0 out
    putAll ops ns l out

/-- The characters of `"ExSeisDat 4d-bin file.\n"`, `util/4dio.cc` 222. -/
def title : List Nat := "ExSeisDat 4d-bin file.\n".toList.map Char.toNat

/-- The writer of process `r`, `util/4dio.cc` 219-225 and 239-253: the header calls, the blocks and the calls without
traces. -/
def writerOn (ns : Nat) (inc : ℚ) (max : Nat) (lists : List (List Nat × List K)) (r : Nat) : Res W := do
  let lnt := (lists.getD r ([], [])).1.length
  let (offset, sz, biggest) := sharesOf lists r
  let extra ← extraCalls biggest lnt max
  let calls := (pieces lnt max lnt 0).map (fun b => (add64 offset b.1, b.2)) ++ List.replicate extra (0, 0)
  .ok (calls.foldl (fun w c => w.writeTrace c.1 c.2)
    ((((W.new.writeText title).writeNt sz).writeInc inc).writeNs ns))

/-- `outputNonMono` on all processes, `util/4dio.cc` 177-259, with the closing of the output at the end. `d` is the source
file, `lists` has for every process its traces and their criteria; `sched` gives the order in which the blocks reach the
output, `out` is the output file before. -/
def outputNonMono (ops : FloatOps F) (cv : Conv F (BitVec 64)) (cvd : Conv F K) (zero : F) (idx : List Nat → List Nat)
    (sched : List (Put F) → List (Put F)) (printDsr : Bool) (d : Disk) (lists : List (List Nat × List K)) (out : Disk) :
    Res Disk := do
  let i ← openRead d
  let rule ← outRule printDsr
  let (rule, ext) ← extent rule
  let max := outMax i.ns ext
  let ws ← collect (writerOn i.ns i.inc max lists) (List.range lists.length)
  let ps ← collect (procPuts ops cv cvd zero idx printDsr (decide (i.format = 1#16)) rule i.ns max d lists)
    (List.range lists.length)
  let out ← putAll ops i.ns (sched ps.flatten) out
  close ws out

/-- The end of `main`, `util/fourdbin.cc` 127-157: the lists of matched traces of all processes (`ms`: number in the first
file, number in the second file, criterion), and the two outputs. -/
def writeBoth (ops : FloatOps F) (cv : Conv F (BitVec 64)) (cvd : Conv F K) (zero : F) (idx : List Nat → List Nat)
    (sched : List (Put F) → List (Put F)) (printDsr : Bool) (d1 d2 : Disk) (ms : List (List (Nat × Nat × K)))
    (out1 out2 : Disk) : Res (Disk × Disk) := do
  let o1 ← outputNonMono ops cv cvd zero idx sched printDsr d1
    (ms.map fun m => (m.map fun q => q.1, m.map fun q => q.2.2)) out1
  let o2 ← outputNonMono ops cv cvd zero idx sched printDsr d2
    (ms.map fun m => (m.map fun q => q.2.1, m.map fun q => q.2.2)) out2
  .ok (o1, o2)

/-- `main` from the coordinates on, `util/fourdbin.cc` 125-157: the search on every process and the outputs. `c1s` and
`c2s` are the coordinates of the two files on all processes. -/
def fourdbin {T : Type} [LinearOrder K] (g : Geo K T) (ops : FloatOps F) (cv : Conv F (BitVec 64)) (cvd : Conv F K)
    (zero : F) (idx : List Nat → List Nat) (sched : List (Put F) → List (Put F)) (printDsr : Bool) (d1 d2 : Disk)
    (c1s c2s : List (List T)) (out1 out2 : Disk) : Res (Disk × Disk) := do
  let ms ← collect (fun r => do
    let c1 := c1s.getD r []
    let st ← calc4DBin g r c1 c2s
    .ok (matched g c1 st)) (List.range c1s.length)
  writeBoth ops cv cvd zero idx sched printDsr d1 d2 ms out1 out2

end Verif.FourDOut
