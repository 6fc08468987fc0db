import Verif.Util.MakeRep

/-!
# Repeating the traces of a file: the version that moves the borders of the shares, `util/makerep.cc`
-/

namespace Verif.Util
open Verif.Decomp

/-- A process in `distribToDistrib`, `util/makerep.cc` 48-52: its share before and after and its bytes. -/
structure Proc (α : Type) where
  old : Dec
  new : Dec
  buf : List α
  deriving Repr, DecidableEq

namespace Proc
variable {α : Type}

/-- Bytes to be received from the process below: 61-62, 84-85 of `util/makerep.cc` (`old.global_offset >
newd.global_offset`). Zero stands for no message, here and below. Sums and differences are taken without wrap-around. -/
def lowIn (p : Proc α) : Nat := p.old.globalOffset - p.new.globalOffset
/-- Bytes to be sent to the process below, `util/makerep.cc` 77-78. -/
def lowOut (p : Proc α) : Nat := p.new.globalOffset - p.old.globalOffset
/-- Bytes to be received from the process above, `util/makerep.cc` 68-75 and 104-108. -/
def highIn (p : Proc α) : Nat :=
  (p.new.globalOffset + p.new.localSize) - (p.old.globalOffset + p.old.localSize)
/-- Bytes to be sent to the process above, `util/makerep.cc` 92-96. -/
def highOut (p : Proc α) : Nat :=
  (p.old.globalOffset + p.old.localSize) - (p.new.globalOffset + p.new.localSize)

/-- The buffer after making room at its start (`util/makerep.cc` 61-66, the cells made free keep what was there) and at its
end (68-75); `z` is the value of new cells. -/
def enlarged (z : α) (p : Proc α) : List α :=
  (p.buf ++ List.replicate p.lowIn z).take p.lowIn ++ p.buf ++ List.replicate p.highIn z

/-- The message to the process below, `util/makerep.cc` 77-83. -/
def toBelow (z : α) (p : Proc α) : List α := (p.enlarged z).take p.lowOut

/-- The message to the process above, `util/makerep.cc` 92-101. -/
def toAbove (z : α) (p : Proc α) : List α := (p.enlarged z).drop ((p.enlarged z).length - p.highOut)

end Proc

/-- The messages between two neighbours in one direction, `util/makerep.cc` 77-125: `sent` bytes are sent (none if zero) and
`room` are awaited. A message that nobody awaits, one that is awaited and never sent, and one longer than the room for it
do not complete in the way the code expects: it stops with an error or waits for ever. -/
def fits (sent room : Nat) : Bool := (sent == 0 && room == 0) || (sent != 0 && decide (sent ≤ room))

/-- `distribToDistrib`, `util/makerep.cc` 48-134, on one process, given its neighbours (none at the ends, where there must
be no message). Buffers of pending messages outside the vector or overlapping are undefined. -/
def distrib {α : Type} (z : α) (below : Option (Proc α)) (p : Proc α) (above : Option (Proc α)) : Res (List α) :=
  let v := p.enlarged z
  if v.length < p.lowOut + p.highIn ∨ v.length < p.lowIn + p.highOut then .ub
  else
    let low := below.elim [] (Proc.toAbove z)
    let high := above.elim [] (Proc.toBelow z)
    if fits (below.elim 0 Proc.highOut) p.lowIn ∧ fits p.lowOut (below.elim 0 Proc.highIn) ∧
        fits (above.elim 0 Proc.lowOut) p.highIn ∧ fits p.highOut (above.elim 0 Proc.lowIn) then
      let v1 := low ++ v.drop low.length
      let v2 := v1.take (v1.length - p.highIn) ++ high ++ v1.drop (v1.length - p.highIn + high.length)
      let v3 := v2.drop p.lowOut ++ v2.drop (v2.length - p.lowOut)
      .ok (v3.take p.new.localSize ++ List.replicate (p.new.localSize - v2.length) z)
    else .abort

/-- `distribToDistrib`, `util/makerep.cc` 48-134, on all processes; `below` is the one before the list. -/
def distribAll {α : Type} (z : α) (below : Option (Proc α)) : List (Proc α) → Res (List (List α))
  | [] => .ok []
  | p :: rest => do
    let v ← distrib z below p rest.head?
    let vs ← distribAll z (some p) rest
    .ok (v :: vs)

/-- The shares of all processes from `r` on, `blockDecomp` as called in `util/makerep.cc` 150 and 187 with blocks of `2^21`
bytes. -/
def decsFrom (sz N off : Nat) : Nat → Nat → Res (List Dec)
  | 0, _ => .ok []
  | n + 1, r => do
    let d ← blockDecomp sz 2097152 N r off
    let ds ← decsFrom sz N off n (r + 1)
    .ok (d :: ds)

/-- A write: the bytes given by where they are in the input (`none` for bytes that are not from the input).
`util/makerep.cc` 158 and 192. -/
structure Put where
  dst : Nat
  bytes : List (Option Nat)
  deriving Repr, DecidableEq

/-- The share of a process and its bytes, `dec` and `buf` of `util/makerep.cc` 187-190. -/
structure Held where
  dec : Dec
  buf : List (Option Nat)
  deriving Repr, DecidableEq

/-- `out->write` of a process, `util/makerep.cc` 158: more bytes than the buffer has are read outside of it. -/
def putAll (off : Nat) : List Dec → List (List (Option Nat)) → Res (List Put)
  | d :: ds, v :: vs =>
    if v.length < d.localSize then .ub
    else do
      let ps ← putAll off ds vs
      .ok (⟨off + d.globalOffset, v.take d.localSize⟩ :: ps)
  | _, _ => .ok []

/-- `writeArb`, `util/makerep.cc` 140-161, on all processes. -/
def writeArb (N off tsz : Nat) (st : List Held) : Res (List Held × List Put) := do
  let ds ← decsFrom tsz N off N 0
  let vs ← (if N ≠ 1 then
      distribAll none none (List.zipWith (fun h d => (⟨h.dec, d, h.buf⟩ : Proc (Option Nat))) st ds)
    else .ok (st.map Held.buf))
  let ps ← putAll off ds vs
  .ok (List.zipWith Held.mk ds vs, ps)

/-- The loop over the repetitions, `util/makerep.cc` 209-213: repetitions from `j` on, `n` of them. -/
def repeatArb (N fsz i tsz : Nat) : Nat → Nat → List Held → Res (List Put)
  | 0, _, _ => .ok []
  | n + 1, j, st => do
    let (st', ps) ← writeArb N (headerSz + (fsz - headerSz) * j + i) tsz st
    let rest ← repeatArb N fsz i tsz n (j + 1) st'
    .ok (ps ++ rest)

/-- Taking the header away from the process that read it, `util/makerep.cc` 194-206: a buffer shorter than the header makes
`std::move` of 197 undefined. -/
def dropHeader : List Held → Res (List Held)
  | [] => .ok []
  | h :: rest =>
    if h.dec.globalOffset = 0 then
      if h.buf.length < headerSz then .ub
      else do
        let l ← dropHeader rest
        .ok (⟨⟨0, h.dec.localSize - headerSz⟩, h.buf.drop headerSz⟩ :: l)
    else do
      let l ← dropHeader rest
      .ok (⟨⟨sub64 h.dec.globalOffset headerSz, h.dec.localSize⟩, h.buf⟩ :: l)

/-- One round of the loop of `mpiMakeSEGYCopy`, `util/makerep.cc` 186-213, on all processes. -/
def standardRound (N fsz rep i step : Nat) : Res (List Put) := do
  let rblock := if i + step < fsz then step else fsz - i
  let ds ← decsFrom rblock N i N 0
  let st := ds.map fun d => (⟨d, (List.range' (i + d.globalOffset) d.localSize).map some⟩ : Held)
  let first := st.map fun h => (⟨i + h.dec.globalOffset, h.buf⟩ : Put)
  let rest ← (if i = 0 then do
      let st' ← dropHeader st
      repeatArb N fsz i (rblock - headerSz) (rep - 1) 1 st'
    else repeatArb N fsz i rblock (rep - 1) 1 st)
  .ok (first ++ rest)

/-- The loop of `mpiMakeSEGYCopy`, `util/makerep.cc` 185-214: `step` bytes at a time. The first argument bounds the rounds
(`i` grows by `step`, not zero). -/
def standardLoop (N fsz rep step : Nat) : Nat → Nat → Res (List Put)
  | 0, _ => .ok []
  | fuel + 1, i =>
    if i < fsz then do
      let l ← standardRound N fsz rep i step
      let rest ← standardLoop N fsz rep step fuel (i + step)
      .ok (l ++ rest)
    else .ok []

/-- `mpiMakeSEGYCopy`, `util/makerep.cc` 171-215: the writes of all processes. Reads and writes are taken to succeed and to
be whole. -/
def standardCopy (N fsz rep : Nat) : Res (List Put) := standardLoop N fsz rep (stepSz N) fsz 0

end Verif.Util
