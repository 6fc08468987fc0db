import Verif.Util.MakeRepStd
import Verif.File.Model

/-!
# The whole of `util/makerep.cc`
-/

namespace Verif.Util
open Verif.Files Verif.Endian

/-- The ways of copying, `util/makerep.cc` 258. -/
inductive Version where
  | block
  | naive1
  | naive2
  deriving Repr, DecidableEq

/-- `getVersion`, `util/makerep.cc` 260-267, and the value without the option `-v` (275). Another word makes 266
dereference the end of the map. -/
def getVersion : Option String → Res Version
  | none => .ok .block
  | some s =>
    if s = "standard" then .ok .block
    else if s = "naive1" then .ok .naive1
    else if s = "naive2" then .ok .naive2
    else .ub

/-- The bytes of a copy, as in the standard version. `util/makerep.cc` 31-43 and 235-253. -/
def Copy.put (c : Copy) : Put := ⟨c.dst, (List.range' c.src c.len).map some⟩

/-- The writes of processes `r`, `r + 1`, ... (`n` of them), each running `f`. `util/makerep.cc` 314, 329 and 337. -/
def putsOf (f : Nat → Res (List Copy)) : Nat → Nat → Res (List Put)
  | 0, _ => .ok []
  | n + 1, r => do
    let l ← f r
    let rest ← putsOf f n (r + 1)
    .ok (l.map Copy.put ++ rest)

/-- The writes of all processes, `util/makerep.cc` 313-340. -/
def repPuts (v : Version) (rep N fsz : Nat) : Res (List Put) :=
  if fsz / N < headerSz then putsOf (smallCopy fsz rep) N 0
  else
    match v with
    | .block => standardCopy N fsz rep
    | .naive1 => putsOf (naive1 fsz rep N) N 0
    | .naive2 => putsOf (naive2 fsz rep N) N 0

/-- A byte that is written: of the input, zero behind its end (the buffers of `util/makerep.cc` 29, 189 and 234 are new and a
read at the end of a file is short), `junk` for a byte that is neither. -/
def putByte (inp : Disk) (junk : Byte) : Option Nat → Byte
  | some q => if q < inp.size then inp.byte q else 0#8
  | none => junk

/-- A write to a file that was opened without truncating it (`FileMode::Write`, `DataMPIIO.cc` 228-229). -/
def Put.apply (inp : Disk) (junk : Byte) (o : Disk) (p : Put) : Disk where
  size := if p.bytes = [] then o.size else max o.size (p.dst + p.bytes.length)
  byte x := if p.dst ≤ x then
      match p.bytes[x - p.dst]? with
      | some b => putByte inp junk b
      | none => o.byte x
    else o.byte x

/-- `util/makerep.cc` 269-342 from the options on `N` processes: `sched` is the order in which the writes reach the output,
which holds `out` before. Memory is taken to be enough. The size of the output is never set. -/
def makeRep (version : Option String) (rep N : Nat) (sched : List Put → List Put) (junk : Byte) (inp out : Disk) :
    Res Disk := do
  let v ← getVersion version
  let ps ← repPuts v rep N inp.size
  .ok ((sched ps).foldl (Put.apply inp junk) out)

end Verif.Util
