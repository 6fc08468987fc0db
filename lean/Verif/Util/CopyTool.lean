import Verif.File.Writer
import Verif.Decomp.Model
import Verif.Flow.Output
/-!
# Copying a file through the C interface

`examples/creadwrite.c` over the wrappers of `src/PIOL_C_bindings.cc`.  `malloc`
is taken to succeed; the input and the output are different files.
-/
namespace Verif.CCopy
open Verif.Rules Verif.Params Verif.Files Verif.Layout Verif.Endian

variable {F : Type}

/-- A `std::string` handed on as a C string: the characters before the first
NUL.  `PIOL_C_bindings.cc:294-300` (`c_str`) and `323-330` (back to a string). -/
def cstr (t : List Nat) : List Nat := t.takeWhile (· ≠ 0)

/-- `PIOL_File_ReadDirect_readTrace`, `PIOL_C_bindings.cc:357-373`, through
`ReadDirect.cc:53-60`: NULL for the samples fails an assertion, NULL for the
parameters means samples only. -/
def cReadTrace (ops : FloatOps F) (cv : Conv F (BitVec 64)) (i : Info) (d : Disk) (off n : Nat)
    (trc : Option (Arr Byte)) (prm : Option (Param F)) : Res (Option (Arr Byte) × Option (Param F)) :=
  match trc with
  | none => .abort
  | some t => readTrace ops cv (decide (i.format = 1#16)) i.ns i.nt off n (some t) prm 0 d

/-- `PIOL_File_WriteDirect_writeTrace`, `PIOL_C_bindings.cc:375-391`, through
`WriteDirect.cc:41-48` and `WriteSEGY.cc:278-295` (for its count of traces see
`W.writeTrace`). -/
def cWriteTrace (ops : FloatOps F) (ns off n : Nat) (trc : Option (Arr Byte)) (prm : Option (Param F)) (out : Disk) :
    Res Disk :=
  match trc with
  | none => .abort
  | some t => do
    let (out, _) ← writeTraceT ops ns (.start off) n (some t) prm 0 out
    .ok out

/-- `TraceLinearInc`, `creadwrite.c:138-143`, on the samples from number `first`;
`lin k off` are the bits of `(float)(2.0 * k + off)`. -/
def linearInc (lin : Nat → Nat → BitVec 32) (off first : Nat) (t : Arr Byte) (k : Nat) : Nat → Res (Arr Byte)
  | 0 => .ok t
  | n + 1 => do
    let t ← storeF t (first + k) (lin k off)
    linearInc lin off first t (k + 1) n

/-- The loop over the traces, `creadwrite.c:49-53`: trace `i` is passed as
`&trace[i]`. -/
def modTraces (lin : Nat → Nat → BitVec 32) (off ns : Nat) (t : Arr Byte) (i : Nat) : Nat → Res (Arr Byte)
  | 0 => .ok t
  | n + 1 => do
    let t ← linearInc lin off i t 0 ns
    modTraces lin off ns t (i + 1) n

/-- `SourceX1600Y2400`, `creadwrite.c:132-136`, through `PIOL_C_bindings.cc:196-202`;
20 and 21 are the source coordinates (`Meta`, `metadata.h`), `num n` is the
double of `n`. -/
def moveSource (cv : Conv F F) (num : Nat → F) (off i : Nat) (p : Param F) : Res (Param F) := do
  let p ← setPrm cv i 20 (num (off + 1600)) p
  setPrm cv i 21 (num (off + 2400)) p

/-- The loop over the parameters, `creadwrite.c:55-59`. -/
def modParams (cv : Conv F F) (num : Nat → F) (off : Nat) (p : Param F) (i : Nat) : Nat → Res (Param F)
  | 0 => .ok p
  | n + 1 => do
    let p ← moveSource cv num off i p
    modParams cv num off p (i + 1) n

/-- The two function pointers, `creadwrite.c:21-22`, `161-162`: whether the
samples and the parameters are modified. -/
structure Mods where
  trc : Bool
  prm : Bool
deriving DecidableEq

/-- What the arithmetic of the program needs of floating point numbers. Not code of /repo: the conversions of the
items, the value of a new item, and the numbers put into the traces. -/
structure Num (F : Type) where
  ops : FloatOps F
  toT : Conv F (BitVec 64)
  toF : Conv F F
  zero : F
  lin : Nat → Nat → BitVec 32
  num : Nat → F

/-- `readWriteFullTrace`, `creadwrite.c:32-66`; `junk` is what `malloc` left in
the memory.  The call of `isErr` at the end is made in a state without errors
(`W.writeTrace` records none once the number of samples is set). -/
def copyBlock (N : Num F) (junk : Nat → Byte) (m : Mods) (i : Info) (d : Disk) (c : Nat × Nat) (out : Disk) :
    Res Disk := do
  let rule ← ctor [] true true false
  if mul64 c.2 (getDFSz i.ns) = 0 then .abort
  else do
    let q ← cReadTrace N.ops N.toT i d c.1 c.2 (some ⟨mul64 c.2 (getDFSz i.ns), junk⟩) (some (mk N.zero rule c.2))
    match q.1, q.2 with
    | some t, some p => do
      let t ← (if m.trc then modTraces N.lin c.1 i.ns t 0 c.2 else .ok t : Res (Arr Byte))
      let p ← (if m.prm then modParams N.toF N.num c.1 p 0 c.2 else .ok p : Res (Param F))
      cWriteTrace N.ops i.ns c.1 c.2 (some t) (some p) out
    | _, _ => .ub

/-- The first loop of `writePayload`, `creadwrite.c:84-88`: first trace and
number of traces of each call. -/
def spans (tcnt goff lnt k : Nat) : List (Nat × Nat) :=
  if _h : k < lnt ∧ 0 < tcnt then
    (goff + k, if k + tcnt < lnt then tcnt else lnt - k) :: spans tcnt goff lnt (k + tcnt)
  else []
termination_by lnt - k

/-- The number of calls without traces, `creadwrite.c:81-82`. -/
def extra (tcnt lnt biggest : Nat) : Nat :=
  sub64 (add64 (sub64 (biggest / tcnt) (lnt / tcnt)) (if 0 < biggest % tcnt then 1 else 0))
    (if 0 < lnt % tcnt then 1 else 0)

/-- The calls a process makes, `creadwrite.c:84-92`. -/
def callsOf (tcnt goff lnt biggest : Nat) : List (Nat × Nat) :=
  spans tcnt goff lnt 0 ++ List.replicate (extra tcnt lnt biggest) (goff, 0)

/-- The calls of all processes, in the order in which they take place.
`creadwrite.c:84-92`. -/
def runCalls (N : Num F) (junk : Nat → Byte) (m : Mods) (i : Info) (d : Disk) : List (Nat × Nat) → Disk → Res Disk
  | [], out => .ok out
  | c :: l, out => do
    let out ← copyBlock N junk m i d c out
    runCalls N junk m i d l out

/-- The writer after the header calls, `creadwrite.c:112-115`. -/
def headerCalls (i : Info) : W :=
  (((W.new.writeText (cstr i.text)).writeNs i.ns).writeNt i.nt).writeInc i.inc

/-- Traces per call, `creadwrite.c:120-121`. -/
def perCall (memmax ns : Nat) : Nat := memmax / max (getDFSz ns) getMDSz

/-- `ReadWriteFile` and `writePayload` on `P` processes, `creadwrite.c:95-130`
and `68-93`; `isErr` ends the program if the header calls recorded an error
(`ExSeisPIOL.cc:17-27`).  `sched` is the order in which the calls of the
processes take place. -/
def readWriteFile (N : Num F) (junk : Nat → Byte) (sched : List (Nat × Nat) → List (Nat × Nat)) (P memmax : Nat)
    (m : Mods) (d out : Disk) : Res Disk := do
  let i ← openRead d
  let w := headerCalls i
  if w.err then .abort
  else do
    let decs ← Flow.collect (Decomp.blockDecomposition i.nt P) (List.range P)
    let tcnt := perCall memmax i.ns
    if tcnt = 0 then .ub
    else do
      let biggest := (decs.map (·.localSize)).foldl max 0
      let calls := decs.map fun c => callsOf tcnt c.globalOffset c.localSize biggest
      let out ← runCalls N junk m i d (sched calls.flatten) out
      close (calls.map fun l => l.foldl (fun w c => w.writeTrace c.1 c.2) w) out

/-- What the options have set so far, `creadwrite.c:156-162`. -/
structure Conf where
  iname : Option String
  oname : Option String
  memmax : Nat
  mods : Mods
deriving DecidableEq

/-- The loop over the options, `creadwrite.c:164-215`: what `getopt` returns
and `optarg`, NULL for an option without argument (`strlen` of which is
undefined); `scan` is `sscanf` with `%zu`.  `none` if the program ends at once. -/
def options (scan : String → Option Nat) : Conf → List (Char × Option String) → Res (Option Conf)
  | c, [] => .ok (some c)
  | _, (_, none) :: _ => .ub
  | c, (o, some arg) :: l =>
    if o = 'i' then options scan { c with iname := some arg } l
    else if o = 'o' then options scan { c with oname := some arg } l
    else if o = 'm' then
      match scan arg with
      | some n => options scan { c with memmax := n } l
      | none => .ok none
    else if o = 'p' then options scan { c with mods := { c.mods with prm := true } } l
    else if o = 't' then options scan { c with mods := { c.mods with trc := true } } l
    else options scan c l

/-- Before the options, `creadwrite.c:156-162`. -/
def Conf.start : Conf := ⟨none, none, 2 * 1024 * 1024 * 1024, ⟨false, false⟩⟩

/-- `main`, `creadwrite.c:146-232`: the name and the bytes of the output, if
there is one.  `files` are the files by name. -/
def creadwrite (N : Num F) (junk : Nat → Byte) (sched : List (Nat × Nat) → List (Nat × Nat)) (P : Nat)
    (scan : String → Option Nat) (files : String → Disk) (opts : List (Char × Option String)) :
    Res (Option (String × Disk)) := do
  let c ← options scan .start opts
  match c with
  | none => .ok none
  | some c =>
    match c.iname, c.oname with
    | some a, some b => do
      let o ← readWriteFile N junk sched P c.memmax c.mods (files a) (files b)
      .ok (some (b, o))
    | _, _ => .abort

end Verif.CCopy
