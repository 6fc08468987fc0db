import Verif.Util.CreateTool
/-!
# Copying a file in one call per process

`examples/example2.c`.  `malloc` is taken to succeed for a positive size; the
input and the output are different files.
-/
namespace Verif.CTurn
open Verif.Rules Verif.Params Verif.Files Verif.Layout Verif.Endian Verif.CCreate Verif.Scalar

/-- The writer after the header calls, `example2.c:77-80`: the number of traces is given as
the number of samples, and the other way around. -/
def headerCalls (i : Info) : W :=
  (((W.new.writeNs i.nt).writeNt i.ns).writeText (CCopy.cstr i.text)).writeInc i.inc

/-- `malloc`, `example2.c:69`: for no bytes it may give NULL (`null0`); `junk` is what is in the memory. -/
def memory (null0 : Bool) (junk : Nat → Byte) (len : Nat) : Option (Arr Byte) :=
  if len = 0 ∧ null0 = true then none else some ⟨len, junk⟩

/-- The share of a process, `example2.c:64-70` and `82-84`; `wns` is the number of samples the writer has. -/
def turnBlock (null0 : Bool) (junk : Nat → Byte) (i : Info) (wns : Nat) (d : Disk) (c : Decomp.Dec) (out : Disk) : Res Disk := do
  let rule ← ctor [] true true false
  let q ← CCopy.cReadTrace dbl iconv i d c.globalOffset c.localSize (memory null0 junk (mul64 c.localSize (getDFSz i.ns)))
    (some (mk 0 rule c.localSize))
  CCopy.cWriteTrace dbl wns c.globalOffset c.localSize q.1 q.2 out

/-- `main` with both names given, on `P` processes, `example2.c:17-101`.  After the opening of the files no error is
looked for.  `sched` is the order in which the processes write. -/
def example2 (null0 : Bool) (junk : Nat → Byte) (sched : List Decomp.Dec → List Decomp.Dec) (P : Nat) (d out : Disk) :
    Res Disk := do
  let i ← openRead d
  let decs ← Flow.collect (Decomp.blockDecomposition i.nt P) (List.range P)
  let w := headerCalls i
  let out ← runBlocks (turnBlock null0 junk i w.ns d) (sched decs) out
  close (decs.map fun c => w.writeTrace c.globalOffset c.localSize) out

end Verif.CTurn
