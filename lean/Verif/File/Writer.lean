import Verif.File.Model
import Verif.CharEnc.Model
import Verif.FP.Double
/-!
# The life of a writer, and opening a file for reading

`src/WriteSEGY.cc:25-187` and `278-316`, `src/ReadSEGY.cc:28-104`.  The state of
the writer object on each process; the trace bytes themselves are the subject
of `File/Model.lean`.
-/
namespace Verif.Files
open Verif.Layout Verif.Endian Verif.FP

/-- The `double` nearest to `1e-6`, `WriteSEGY.cc:29-30`, `ReadSEGY.cc:30-31`
(the default options). -/
def micro : ℚ := rnd (1 / 10 ^ 6)

/-- A `WriteSEGY` object on one process: `WriteInterface.hh:36-46`,
`WriteSEGY.hh:33-53`.  `err` is the error flag of the process's log
(`Logger.cc:36-38`); it starts clear.  `inc` is a finite double. -/
structure W where
  ns : Nat
  nt : Nat
  nsSet : Bool
  text : List Nat
  inc : ℚ
  resize : Bool
  stalent : Bool
  writeHO : Bool
  err : Bool

/-- The constructor, `WriteSEGY.cc:33-43`. -/
def W.new : W := ⟨0, 0, false, [], 0, false, false, true, false⟩

/-- `writeText`, `WriteSEGY.cc:138-145`. -/
def W.writeText (w : W) (t : List Nat) : W :=
  if w.text ≠ t then { w with text := CharEnc.resize CharEnc.textSz t, writeHO := true } else w

/-- `writeNs`, `WriteSEGY.cc:147-162`. -/
def W.writeNs (w : W) (n : Nat) : W :=
  if n > 32767 then { w with err := true }
  else if w.ns ≠ n then { w with ns := n, resize := true, writeHO := true, nsSet := true }
  else { w with nsSet := true }

/-- `writeNt`, `WriteSEGY.cc:164-171`. -/
def W.writeNt (w : W) (n : Nat) : W :=
  if w.nt ≠ n then { w with nt := n, resize := true, stalent := false }
  else { w with stalent := false }

/-- `writeInc`, `WriteSEGY.cc:173-187`.  `std::isnormal` of a finite double:
neither zero nor subnormal.  (Infinities and NaN, not representable here, are
refused by the same test.) -/
def W.writeInc (w : W) (x : ℚ) : W :=
  if |x| < 2 ^ (-1022 : ℤ) then { w with err := true }
  else if w.inc ≠ x then { w with inc := x, writeHO := true } else w

/-- Bookkeeping of `writeTrace`, `WriteSEGY.cc:285-294` (also `writeParam`,
`WriteInterface.cc:11-17`). -/
def W.writeTrace (w : W) (offset sz : Nat) : W :=
  { w with err := w.err || !w.nsSet, stalent := true, nt := max (add64 offset sz) w.nt }

/-- Bookkeeping of `writeTraceNonContiguous`, `WriteSEGY.cc:304-315`. -/
def W.writeList (w : W) (offs : List Nat) : W :=
  { w with
    err := w.err || !w.nsSet, stalent := true
    nt := match offs.getLast? with | none => w.nt | some o => max (add64 o 1) w.nt }

/-- `std::lround` of a double; a result that does not fit `long` is undefined. Used in `WriteSEGY.cc` 66-114. -/
def lroundLong (x : ℚ) : Res ℤ := if -2 ^ 63 ≤ lround x ∧ lround x < 2 ^ 63 then .ok (lround x) else .ub

/-- The file header built by the destructor, `WriteSEGY.cc:66-114`; byte
positions from `segy_utils.hh:64-85`. -/
def W.header (w : W) : Res (Arr Byte) := do
  let b ← (Arr.fill getHOSz 0#8).writes 0 (w.text.map (BitVec.ofNat 8))
  let b ← b.writes 3220 (toBESigned 2 (BitVec.ofNat 16 w.ns))
  let b ← b.writes 3224 (toBESigned 2 5#16)
  let n ← lroundLong (rnd (w.inc / micro))
  let b ← b.writes 3216 (toBESigned 2 (BitVec.ofInt 16 n))
  let b ← b.writes 3254 (toBESigned 2 0x0001#16)
  let b ← b.writes 3500 (toBESigned 2 0x0100#16)
  let b ← b.writes 3502 (toBESigned 2 0x0001#16)
  b.writes 3504 (toBESigned 2 0x0000#16)

/-- A collective operation: every process has to make it with the same
argument (`MPI_File_set_size`) or the same decision to make it. As in `WriteSEGY.cc` 59-61 and 128-136. -/
def agree {α : Type} [DecidableEq α] : List α → Res α
  | [] => .ub
  | a :: l => if l.all (· = a) then .ok a else .ub

/-- `calcNt` on all processes, `WriteSEGY.cc:128-136`. -/
def calcNt (ws : List W) : Res (List W) := do
  let st ← agree (ws.map W.stalent)
  if st then
    let m := (ws.map W.nt).foldl max 0
    .ok (ws.map fun w => { w with nt := m, stalent := false, resize := true })
  else .ok ws

/-- `setFileSz` on all processes, `DataMPIIO.cc:367-378`: a size which is
negative as `MPI_Offset` is refused (and recorded). -/
def setFileSz (szs : List Nat) (d : Disk) : Res Disk := do
  let sz ← agree szs
  if sz < 2 ^ 63 then .ok { d with size := sz } else .ok d

/-- Lines 59-61 of the destructor on all processes. (Lines of `WriteSEGY.cc`.) -/
def closeSize (ws : List W) (d : Disk) : Res Disk := do
  let rs ← agree (ws.map W.resize)
  if rs then setFileSz (ws.map fun w => getFileSz w.nt w.ns) d else .ok d

/-- Lines 63-122 of the destructor: process 0 writes the header,
`ObjectSEGY.cc:42-50`; the other processes take part with nothing. -/
def closeHeader (ws : List W) (d : Disk) : Res Disk := do
  let ho ← agree (ws.map W.writeHO)
  if ho then
    match ws with
    | [] => .ub
    | w :: _ => do
      let b ← w.header
      send d b [.contig 0 getHOSz]
  else .ok d

/-- The destructor on all processes, `WriteSEGY.cc:53-124`. -/
def close (ws : List W) (d : Disk) : Res Disk := do
  let err ← agree (ws.map W.err)
  if err then .ok d
  else do
    let ws ← calcNt ws
    let d ← closeSize ws d
    closeHeader ws d

/-- What a `ReadSEGY` object learns from the file, `ReadInterface.hh:36-46`,
`ReadSEGY.hh:38`. -/
structure Info where
  ns : Nat
  nt : Nat
  inc : ℚ
  format : BitVec 16
  text : List Nat

/-- A 16-bit field of the header. Used in `ReadSEGY.cc` 34-104. -/
def field16 (b : Arr Byte) (p : Nat) : Res (BitVec 16) := do
  let b0 ← b.get p
  let b1 ← b.get (p + 1)
  .ok (fromBE16 b0 b1)

/-- The constructor of `ReadSEGY`, `ReadSEGY.cc:34-104`.  Assigning an
`int16_t` to `ns` (a `size_t`) extends the sign. -/
def openRead (d : Disk) : Res Info :=
  if getHOSz ≤ d.size then do
    let b ← recv d (.fill getHOSz 0#8) [.contig 0 getHOSz]
    let ns ← field16 b 3220
    let ns := (ns.signExtend 64).toNat
    let nt ← getNt d.size ns
    let iv ← field16 b 3216
    let ty ← field16 b 3224
    .ok ⟨ns, nt, rnd (micro * iv.toInt), ty,
      CharEnc.readText ((List.range CharEnc.textSz).map fun i => (b.val i).toNat)⟩
  else .ok ⟨0, 0, 0, 5#16, []⟩

end Verif.Files
