import Verif.Param.Model
import Verif.Layout.Model
import Verif.IBM.Model
import Verif.Props.DataIO
/-!
# Reading and writing traces

`src/ObjectSEGY.cc`, `src/WriteSEGY.cc:189-316`, `src/ReadSEGY.cc:119-289`.

The file is a size and its bytes.  A request to the data layer moves the bytes
`DataIO.Op.wanted`; that the data layer does so is `DataIO.C17_pieces_partial`.
The bytes of a file beyond what was ever written are arbitrary.

Memory holding a trace (`Trace_value*`) is its bytes, on a little-endian host;
`none` stands for `TRACE_NULL`, and for `PIOL_PARAM_NULL`.  A null pointer
(used with no samples) is an empty array.
-/
namespace Verif.Files
open Verif.Rules Verif.Params Verif.Endian Verif.Layout

/-- A file. Not code of /repo: what lies behind `DataMPIIO.cc`. -/
structure Disk where
  size : Nat
  byte : Nat → Byte

/-- Move bytes from memory to the file: pairs (buffer position, file position).
Effect of the write calls of `DataMPIIO.cc` 551-612. -/
def put (buf : Arr Byte) (d : Disk) : List (Nat × Nat) → Res Disk
  | [] => .ok d
  | (b, f) :: l => do
    let v ← buf.get b
    put buf { size := max d.size (f + 1), byte := fun x => if x = f then v else d.byte x } l

/-- Move bytes from the file to memory; a read beyond the end of the file is
short and leaves the memory as it is. Effect of the read calls of `DataMPIIO.cc` 380-431. -/
def fetch (d : Disk) (buf : Arr Byte) : List (Nat × Nat) → Res (Arr Byte)
  | [] => .ok buf
  | (b, f) :: l =>
    if f < d.size then do
      let buf ← buf.set b (d.byte f)
      fetch d buf l
    else fetch d buf l

/-- `std::vector<unsigned char>(n)`: zeros; `std::length_error` or
`std::bad_alloc` (not caught) when too large. `ReadSEGY.cc` 150-172, `WriteSEGY.cc` 231-246. -/
def alloc (n : Nat) : Res (Arr Byte) := if n < 2 ^ 63 then .ok (.fill n 0#8) else .abort

/-- The `offset` argument: the first of consecutive traces, or an array of
trace numbers. The two versions in `ReadSEGY.cc` 212-241 and `WriteSEGY.cc` 278-316. -/
inductive Where where
  | start (offset : Nat)
  | list (offs : List Nat)

/-- Number of the `i`-th trace (`offunc`, `ReadSEGY.cc:228,240`). -/
def Where.trace : Where → Nat → Nat
  | .start o, i => add64 o i
  | .list l, i => l[i]?.getD 0

/-- `readDO` / `writeDO`, `ObjectSEGY.cc:52-67` and `114-142`. -/
def reqDO (ns : Nat) : Where → Nat → List DataIO.Op
  | .start o, sz => [.contig (getDOLoc o ns) (mul64 sz (getDOSz ns))]
  | .list l, sz => [.list (getDOSz ns) ((l.take sz).map (getDOLoc · ns))]

/-- `readDOMD` / `writeDOMD`, `ObjectSEGY.cc:69-89` and `144-172`. -/
def reqMD (ns : Nat) : Where → Nat → List DataIO.Op
  | .start o, sz => [.strided (getDOLoc o ns) getMDSz (getDOSz ns) sz]
  | .list l, sz => [.list getMDSz ((l.take sz).map (getDOLoc · ns))]

/-- `readDODF` / `writeDODF`, `ObjectSEGY.cc:91-111` and `174-210`; the list
versions return at once when there are no samples (lines 180, 199). -/
def reqDF (ns : Nat) : Where → Nat → List DataIO.Op
  | .start o, sz => [.strided (getDODFLoc o ns) (getDFSz ns) (getDOSz ns) sz]
  | .list l, sz => if ns = 0 then [] else [.list (getDFSz ns) ((l.take sz).map (getDODFLoc · ns))]

/-- What MPI asks of the blocks of a list view: displacements that do not
decrease, and for writing no overlap. Used in `DataMPIIO.cc` 67-101. -/
def legal (wr : Bool) : DataIO.Op → Bool
  | .list bsz offs => if wr then decide (offs.Pairwise fun a b => a + bsz ≤ b) else DataIO.nondec offs
  | _ => true

/-- Issue write requests. Calls of `ObjectSEGY.cc` 59-67, 80-89, 102-111, 129-142, 159-172 and 193-210. -/
def send (d : Disk) (buf : Arr Byte) (reqs : List DataIO.Op) : Res Disk :=
  if reqs.all (legal true) then put buf d (reqs.flatMap DataIO.Op.wanted) else .ub

/-- Issue read requests. Calls of `ObjectSEGY.cc` 52-57, 69-78, 91-100, 114-127, 144-157 and 174-191. -/
def recv (d : Disk) (buf : Arr Byte) (reqs : List DataIO.Op) : Res (Arr Byte) :=
  if reqs.all (legal false) then fetch d buf (reqs.flatMap DataIO.Op.wanted) else .ub

/-- The four bytes of element `i` of a `float` array, in memory order.
Used in `ReadSEGY.cc` 186-207 and `WriteSEGY.cc` 217-228. -/
def bytes4 (m : Arr Byte) (i : Nat) : Res (Byte × Byte × Byte × Byte) := do
  let b0 ← m.get (4 * i)
  let b1 ← m.get (4 * i + 1)
  let b2 ← m.get (4 * i + 2)
  let b3 ← m.get (4 * i + 3)
  .ok (b0, b1, b2, b3)

/-- `trc[i]` as a bit pattern (little-endian host). `WriteSEGY.cc` 217-228. -/
def loadF (m : Arr Byte) (i : Nat) : Res (BitVec 32) := do
  let (b0, b1, b2, b3) ← bytes4 m i
  .ok (fromBE32 b3 b2 b1 b0)

/-- `trc[i] = w`. `ReadSEGY.cc` 201-207. -/
def storeF (m : Arr Byte) (i : Nat) (w : BitVec 32) : Res (Arr Byte) :=
  m.writes (4 * i) (toBEUnsigned 4 w).reverse

/-- In-place conversion to file byte order, `WriteSEGY.cc:217-228`, for `n`
elements from `i`. -/
def toFile (m : Arr Byte) (i : Nat) : Nat → Res (Arr Byte)
  | 0 => .ok m
  | n + 1 => do
    let w ← loadF m i
    let m ← m.writes (4 * i) (toBEUnsigned 4 w)
    toFile m (i + 1) n

/-- In-place conversion back, `WriteSEGY.cc:263-274`; also of samples read,
`ReadSEGY.cc:201-207`. -/
def fromFile (m : Arr Byte) (i : Nat) : Nat → Res (Arr Byte)
  | 0 => .ok m
  | n + 1 => do
    let (b0, b1, b2, b3) ← bytes4 m i
    let m ← storeF m i (fromBE32 b0 b1 b2 b3)
    fromFile m (i + 1) n

/-- A step on trace memory, skipped for `TRACE_NULL`. `ReadSEGY.cc` 183, `WriteSEGY.cc` 217 and 263. -/
def onTrace (f : Arr Byte → Res (Arr Byte)) : Option (Arr Byte) → Res (Option (Arr Byte))
  | none => .ok none
  | some m => do .ok (some (← f m))

/-- The sample copies into the block buffer, `WriteSEGY.cc:248-253`. -/
def samplesIn (ns : Nat) (t buf : Arr Byte) (i : Nat) : Nat → Res (Arr Byte)
  | 0 => .ok buf
  | n + 1 => do
    let buf ← t.copy (i * getDFSz ns) buf (i * getDOSz ns + getMDSz) (getDFSz ns)
    samplesIn ns t buf (i + 1) n

/-- `WriteSEGY.cc:231-257`, the write itself.  `t` is the memory at `tbuf`.
(`extent()` may refresh the cached extent of a rule; dropped.) -/
def writeOut {F : Type} (ops : FloatOps F) (ns : Nat) (w : Where) (sz : Nat) (t : Option (Arr Byte))
    (prm : Option (Param F)) (skip : Nat) (d : Disk) : Res Disk :=
  match prm, t with
  | none, t => send d (t.getD ⟨0, fun _ => 0#8⟩) (reqDF ns w sz)
  | some p, none => do
    let buf ← alloc (mul64 getMDSz sz)
    let (buf, _) ← insertParam ops sz p buf (sub64 getMDSz getMDSz) skip
    send d buf (reqMD ns w sz)
  | some p, some t => do
    let buf ← alloc (mul64 (getDOSz ns) sz)
    let (buf, _) ← insertParam ops sz p buf (sub64 (getDOSz ns) getMDSz) skip
    let buf ← samplesIn ns t buf 0 sz
    send d buf (reqDO ns w sz)

/-- `writeTraceT`, `WriteSEGY.cc:201-275`: the file and the caller's trace
memory afterwards. -/
def writeTraceT {F : Type} (ops : FloatOps F) (ns : Nat) (w : Where) (sz : Nat) (trc : Option (Arr Byte))
    (prm : Option (Param F)) (skip : Nat) (d : Disk) : Res (Disk × Option (Arr Byte)) := do
  let t ← onTrace (toFile · 0 (mul64 ns sz)) trc
  let d ← writeOut ops ns w sz t prm skip d
  let t ← onTrace (fromFile · 0 (mul64 ns sz)) t
  .ok (d, t)

/-- The sample copies out of the block buffer, `ReadSEGY.cc:166-171`. -/
def samplesOut (ns : Nat) (buf t : Arr Byte) (i : Nat) : Nat → Res (Arr Byte)
  | 0 => .ok t
  | n + 1 => do
    let t ← buf.copy (i * getDOSz ns + getMDSz) t (i * getDFSz ns) (getDFSz ns)
    samplesOut ns buf t (i + 1) n

/-- `setPrm(i + skip, PIOL_META_ltn, offunc(i), prm)`, `ReadSEGY.cc:178-180`. -/
def setLtn {F : Type} (cv : Conv F (BitVec 64)) (w : Where) (skip : Nat) (p : Param F) (i : Nat) :
    Nat → Res (Param F)
  | 0 => .ok p
  | n + 1 => do
    let p ← setPrm cv (i + skip) ltn (BitVec.ofNat 64 (w.trace i)) p
    setLtn cv w skip p (i + 1) n

/-- The requests `readTraceT` makes, `ReadSEGY.cc:150-164`. -/
def readReqs (ns : Nat) (w : Where) (sz : Nat) (traces params : Bool) : List DataIO.Op :=
  if params then (if traces then reqDO ns w sz else reqMD ns w sz) else reqDF ns w sz

/-- `ReadSEGY.cc:150-181`: samples still in file byte order. -/
def readIn {F : Type} (ops : FloatOps F) (cv : Conv F (BitVec 64)) (ns : Nat) (w : Where) (sz : Nat)
    (trc : Option (Arr Byte)) (prm : Option (Param F)) (skip : Nat) (d : Disk) :
    Res (Option (Arr Byte) × Option (Param F)) :=
  match prm, trc with
  | none, none => do
    let _ ← recv d ⟨0, fun _ => 0#8⟩ (readReqs ns w sz false false)
    .ok (none, none)
  | none, some t => do
    let t ← recv d t (readReqs ns w sz true false)
    .ok (some t, none)
  | some p, none => do
    let buf ← alloc (mul64 getMDSz sz)
    let buf ← recv d buf (readReqs ns w sz false true)
    let p ← extractParam ops sz buf 0 p 0 skip
    let p ← setLtn cv w skip p 0 sz
    .ok (none, some p)
  | some p, some t => do
    let buf ← alloc (mul64 (getDOSz ns) sz)
    let buf ← recv d buf (readReqs ns w sz true true)
    let t ← samplesOut ns buf t 0 sz
    let p ← extractParam ops sz buf 0 p (getDFSz ns) skip
    let p ← setLtn cv w skip p 0 sz
    .ok (some t, some p)

/-- The bits of `double(x)` for a `float x` given by its bits (IEEE-754; a
signalling NaN may be quietened, which only changes a high bit). Conversion in `ReadSEGY.cc` 186-199. -/
def f2d (w : BitVec 32) : BitVec 64 :=
  let sign := w.toNat / 2 ^ 31
  let ex := w.toNat / 2 ^ 23 % 2 ^ 8
  let fr := w.toNat % 2 ^ 23
  if ex = 255 then BitVec.ofNat 64 (sign * 2 ^ 63 + 2047 * 2 ^ 52 + fr * 2 ^ 29)
  else if ex = 0 then
    if fr = 0 then BitVec.ofNat 64 (sign * 2 ^ 63)
    else
      let k := Nat.log2 fr
      BitVec.ofNat 64 (sign * 2 ^ 63 + (k + 874) * 2 ^ 52 + (fr - 2 ^ k) * 2 ^ (52 - k))
  else BitVec.ofNat 64 (sign * 2 ^ 63 + (ex + 896) * 2 ^ 52 + fr * 2 ^ 29)

/-- Byte `j` of a double in memory. `ReadSEGY.cc` 186-199. -/
def dByte (x : BitVec 64) (j : Nat) : Byte := (x >>> (8 * j)).setWidth 8

/-- Conversion of samples read from an IBM-format file, `ReadSEGY.cc:186-199`:
`be_trc_i` is a `Floating_point` (double), of which the first four bytes are
taken. -/
def fromIBM (m : Arr Byte) (i : Nat) : Nat → Res (Arr Byte)
  | 0 => .ok m
  | n + 1 => do
    let x := f2d (← loadF m i)
    let v ← IBM.fromIBMToFloat (dByte x 0) (dByte x 1) (dByte x 2) (dByte x 3) true
    let m ← storeF m i v
    fromIBM m (i + 1) n

/-- `readTraceT`, `ReadSEGY.cc:134-210`; `ibm` tells the number format. -/
def readTraceT {F : Type} (ops : FloatOps F) (cv : Conv F (BitVec 64)) (ibm : Bool) (ns : Nat) (w : Where)
    (sz : Nat) (trc : Option (Arr Byte)) (prm : Option (Param F)) (skip : Nat) (d : Disk) :
    Res (Option (Arr Byte) × Option (Param F)) := do
  let (t, p) ← readIn ops cv ns w sz trc prm skip d
  let t ← onTrace (fun t => if ibm then fromIBM t 0 (mul64 ns sz) else fromFile t 0 (mul64 ns sz)) t
  .ok (t, p)

/-- Number of traces `readTrace` goes for, `ReadSEGY.cc:219`. -/
def clamp (nt offset sz : Nat) : Nat :=
  if sz = 0 then sz else if add64 offset sz > nt then sub64 nt offset else sz

/-- `ReadSEGY::readTrace`, `ReadSEGY.cc:212-229` (the warning is dropped). -/
def readTrace {F : Type} (ops : FloatOps F) (cv : Conv F (BitVec 64)) (ibm : Bool) (ns nt offset sz : Nat)
    (trc : Option (Arr Byte)) (prm : Option (Param F)) (skip : Nat) (d : Disk) :
    Res (Option (Arr Byte) × Option (Param F)) :=
  readTraceT ops cv ibm ns (.start offset) (clamp nt offset sz) trc prm skip d

/-- `ReadSEGY::readTraceNonContiguous`, `ReadSEGY.cc:231-241`. -/
def readList {F : Type} (ops : FloatOps F) (cv : Conv F (BitVec 64)) (ibm : Bool) (ns : Nat)
    (offs : List Nat) (trc : Option (Arr Byte)) (prm : Option (Param F)) (skip : Nat) (d : Disk) :
    Res (Option (Arr Byte) × Option (Param F)) :=
  readTraceT ops cv ibm ns (.list offs) offs.length trc prm skip d

/-- `offset[idx[j]]` for all `j`. `ReadSEGY.cc` 252-258. -/
def sortedOffs (offs idx : List Nat) : List Nat := idx.map fun j => offs[j]?.getD 0

/-- The list without adjacent repetitions, `ReadSEGY.cc:252-258`. -/
def nodups : List Nat → List Nat
  | [] => []
  | [a] => [a]
  | a :: b :: l => if a = b then nodups (b :: l) else a :: nodups (b :: l)

/-- The counter `n` of lines 269-272 and 279-282 at each `j`. (Lines of `ReadSEGY.cc`.) -/
def places (n : Nat) : List Nat → List Nat
  | [] => []
  | [_] => [n]
  | a :: b :: l => n :: places (if a = b then n else n + 1) (b :: l)

/-- The parameter copies, `ReadSEGY.cc:269-275`: pairs (`n`, `idx[j]`). -/
def spreadPrm {F : Type} (ops : FloatOps F) (sprm : Param F) (skip : Nat) (p : Param F) :
    List (Nat × Nat) → Res (Param F)
  | [] => .ok p
  | (n, j) :: l => do
    let p ← cpyPrm ops n sprm (skip + j) p true
    spreadPrm ops sprm skip p l

/-- The sample copies, `ReadSEGY.cc:279-287`, four bytes a sample. -/
def spreadTrc (ns : Nat) (strc : Arr Byte) (t : Arr Byte) : List (Nat × Nat) → Res (Arr Byte)
  | [] => .ok t
  | (n, j) :: l => do
    let t ← strc.copy (4 * (n * ns)) t (4 * (j * ns)) (4 * ns)
    spreadTrc ns strc t l

/-- `ReadSEGY::readTraceNonMonotonic`, `ReadSEGY.cc:243-289`.  `idx` is the
result of `getSortIndex` (`sort.cc:29-38`; `std::sort` leaves the order of equal
elements open).  `idx[0]` of an empty list (line 253) and `prm->r` of
`PIOL_PARAM_NULL` (line 260) are undefined. -/
def readNonMonotonic {F : Type} (ops : FloatOps F) (cv : Conv F (BitVec 64)) (zero : F) (ibm : Bool) (ns : Nat)
    (offs idx : List Nat) (trc : Option (Arr Byte)) (prm : Option (Param F)) (skip : Nat) (d : Disk) :
    Res (Option (Arr Byte) × Option (Param F)) :=
  match prm with
  | none => .ub
  | some p =>
    if offs = [] then .ub else do
      let v := sortedOffs offs idx
      let u := nodups v
      let pl := (places 0 v).zip idx
      let (st, sp) ← readList ops cv ibm ns u (trc.map fun _ => .fill (4 * (ns * u.length)) 0#8)
        (some (mk zero p.rule u.length)) 0 d
      let p ← spreadPrm ops (sp.getD p) skip p pl
      match trc, st with
      | some t, some st => do .ok (some (← spreadTrc ns st t pl), some p)
      | _, _ => .ok (none, some p)

end Verif.Files
