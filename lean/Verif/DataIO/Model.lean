import Verif.Basic
/-!
# MPI-IO data layer

`src/DataMPIIO.cc:35-175` and `352-609`.  One process is run at a time; what it
does is the list of MPI calls it issues, in order.  MPI itself is an oracle:
for each call, whether it returns an error, and for each `gather` the largest
contribution.  Reads and writes issue the same calls.

Simplifications: file offsets, sizes and buffer positions are unbounded (they
are below `2^63`, as `MPI_Offset`); creating and committing a datatype is one
local call; the message texts and `MPI_Status` are dropped.
-/
namespace Verif.DataIO

/-- What the file looks like to the I/O calls (`MPI_File_set_view`).
Set in `DataMPIIO.cc` 35-101; reset to the plain one at 169, 413 and 582. -/
inductive View where
  /-- `set_view(file, 0, MPI_CHAR, MPI_CHAR)`, `DataMPIIO.cc` 169, 413, 582. -/
  | plain
  /-- `strideView`, `DataMPIIO.cc` 35-55: blocks of `bsz` bytes, starting every `osz` bytes from `off`. -/
  | strided (off bsz osz nb : Nat)
  /-- `randBlockView`, `DataMPIIO.cc` 67-101: blocks of `bsz` bytes at the listed positions. -/
  | blocks (bsz : Nat) (offs : List Nat)
  deriving DecidableEq, Repr

/-- File address of position `p` of the view.  (The typemap is repeated beyond
its end; no call reaches there.) Meaning of the views of `DataMPIIO.cc` 35-101 by the MPI standard. -/
def View.addr : View → Nat → Nat
  | .plain, p => p
  | .strided off bsz osz _, p => off + osz * (p / bsz) + p % bsz
  | .blocks bsz offs, p => offs[p / bsz]?.getD 0 + p % bsz

/-- The MPI calls. Made in `DataMPIIO.cc` 35-175 and 380-612. -/
inductive Ev where
  /-- `MPI_Allgather` of one size (`comm->gather`), collective. -/
  | gather (sz : Nat)
  /-- `MPI_Type_create_…` and `MPI_Type_commit`, local. -/
  | mkType
  /-- `MPI_File_set_view`, collective. -/
  | setView (v : View)
  /-- `MPI_File_{read,write}_at[_all]` of `len` bytes at position `pos` of the
  view `v` then in force, from or to position `buf` of the caller's buffer. -/
  | io (v : View) (pos : Nat) (buf : Option Nat) (len : Nat)
  /-- `MPI_Type_free`, local. -/
  | freeType
  deriving DecidableEq, Repr

/-- Surroundings of a process. What `DataMPIIO.cc` 380-612 depends on besides its arguments. -/
structure Env where
  /-- `DataMPIIO::maxSize`. -/
  maxSize : Nat
  /-- Does call number `n`, being `e`, return something other than `MPI_SUCCESS`? -/
  fail : Nat → Ev → Bool
  /-- Largest contribution to the `k`-th gather. -/
  top : Nat → Nat

/-- State of a process: calls so far, view in force, whether an error has been
recorded in the log. State of `DataMPIIO.cc` 380-612. -/
structure S where
  evs : List Ev
  view : View
  err : Bool
  deriving DecidableEq, Repr

/-- Number of gathers so far. Counts the `gather` calls of `DataMPIIO.cc` 445 and the like. -/
def nGather (l : List Ev) : Nat := l.countP (fun e => match e with | .gather _ => true | _ => false)

/-- Issue one call: did it fail, and the state afterwards.  A successful
`set_view` changes the view. As the MPI calls of `DataMPIIO.cc` 35-175 and 380-612. -/
def call (env : Env) (e : Ev) (s : S) : Bool × S :=
  let f := env.fail s.evs.length e
  (f, { s with
    evs := s.evs ++ [e]
    view := match e with | .setView v => if f then s.view else v | _ => s.view })

/-- `log_->record(…, Error, …)` when `b`. `DataMPIIO.cc` 394-407, 459, 471, 512, 526 and 562-576. -/
def note (b : Bool) (s : S) : S := { s with err := s.err || b }

/-- `comm->gather<size_t>(sz)` and `max_element` of the result, `DataMPIIO.cc` 445-447. -/
def gatherMax (env : Env) (sz : Nat) (s : S) : Nat × S :=
  (env.top (nGather s.evs), (call env (.gather sz) s).2)

/-- `n / max + (n % max > 0)`. `DataMPIIO.cc` 449-450. -/
def calls (n max : Nat) : Nat := n / max + (if n % max > 0 then 1 else 0)

/-- An I/O function as `contigIO` takes it (`MFp`): position, buffer, count;
returns whether it reported an error. `DataMPIIO.cc` 434-440. -/
abbrev Fn := Nat → Option Nat → Nat → S → Res (Bool × S)

/-- The transfer loop `for (i = 0; i < sz; i += max)`, `DataMPIIO.cc` 452-464. -/
def contigLoop (fn : Fn) (offset sz buf bsz osz max : Nat) (i : Nat) (s : S) : Res S :=
  if i < sz ∧ 0 < max then do
    let (e, s) ← fn (offset + osz * i) (some (buf + bsz * i)) (min (sz - i) max) s
    contigLoop fn offset sz buf bsz osz max (i + max) (note e s)
  else .ok s
  termination_by sz - i

/-- The empty calls, `DataMPIIO.cc` 466-476. -/
def restLoop (fn : Fn) (s : S) : Nat → Res S
  | 0 => .ok s
  | n + 1 => do
    let (e, s) ← fn 0 none 0 s
    restLoop fn (note e s) n

/-- `contigIO`, `DataMPIIO.cc` 434-477.  `max` is the divisor of lines 449-450. -/
def contigIO (env : Env) (fn : Fn) (offset sz buf bsz osz : Nat) (s : S) : Res S :=
  if osz = 0 ∨ env.maxSize / osz = 0 then .ub else do
    let max := env.maxSize / osz
    let (top, s) := gatherMax env sz s
    let rem := sub64 (calls top max) (calls sz max)
    let s ← contigLoop fn offset sz buf bsz osz max 0 s
    restLoop fn s rem

/-- The plain MPI function, in whatever view is in force.
An argument of `contigIO`, `DataMPIIO.cc` 380-385 and 586-592. -/
def ioFn (env : Env) : Fn := fun pos buf len s => .ok (call env (.io s.view pos buf len) s)

/-- `read(offset, sz, d)` / `write(offset, sz, d)`, `DataMPIIO.cc` 380-385 and 586-592;
`buf` is the place of `d` inside the caller's buffer. -/
def contig (env : Env) (offset sz buf : Nat) (s : S) : Res S :=
  contigIO env (ioFn env) offset sz buf 1 1 s

/-- `strideView`, `DataMPIIO.cc` 35-55: no `set_view` when the datatype cannot be made. -/
def strideView (env : Env) (off bsz osz nb : Nat) (s : S) : Bool × S :=
  let (e, s) := call env .mkType s
  if e then (true, s) else call env (.setView (.strided off bsz osz nb)) s

/-- `readv` / `writev`, `DataMPIIO.cc` 387-415 and 551-584. -/
def viewIO (env : Env) (off bsz osz nb : Nat) (buf : Option Nat) (s : S) : Res S := do
  let s := note (decide (nb * osz > env.maxSize)) s
  let (e, s) := strideView env off bsz osz nb s
  let s := note e s
  let s ← contig env 0 (nb * bsz) (buf.getD 0) s
  let s := (call env (.setView .plain) s).2
  .ok (call env .freeType s).2

/-- The lambda of `DataMPIIO.cc` 420-426 and 601-606: always reports success. -/
def viewFn (env : Env) (bsz osz : Nat) : Fn := fun pos buf len s => do
  .ok (false, ← viewIO env pos bsz osz len buf s)

/-- `read(offset, bsz, osz, nb, d)` / `write(…)`, `DataMPIIO.cc` 417-431 and 594-612. -/
def strided (env : Env) (offset bsz osz nb : Nat) (s : S) : Res S :=
  contigIO env (viewFn env bsz osz) offset nb 0 bsz osz s

/-- A list of displacements is usable in a view only when it never decreases
(MPI standard, `MPI_File_set_view`). Asserted in `DataMPIIO.cc` 81-83. -/
def nondec : List Nat → Bool
  | a :: b :: l => decide (a ≤ b) && nondec (b :: l)
  | _ => true

/-- `randBlockView`, `DataMPIIO.cc` 67-101, with its assertion (81-83); for a decreasing
list the effect of the MPI call is undefined. -/
def randBlockView (env : Env) (bsz : Nat) (offs : List Nat) (s : S) : Res (Bool × S) :=
  if ¬ offs.length < (2 ^ 31 - 1) / 12 then .abort else
  let (e, s) := call env .mkType s
  if e then .ok (true, s)
  else if ¬ nondec offs then .ub
  else .ok (call env (.setView (.blocks bsz offs)) s)

/-- `iol`, `DataMPIIO.cc` 146-175.  The result of the I/O call (line 163) is not looked
at: line 164 tests the `err` of the view again.  `chunk * bsz` is an `int`
product. -/
def iol (env : Env) (bsz : Nat) (offs : List Nat) (buf : Option Nat) (s : S) : Res (Bool × S) := do
  let (e, s) ← randBlockView env bsz offs s
  if e then .ok (true, s)
  else if 2 ^ 31 ≤ offs.length * bsz then .ub
  else
    let s := (call env (.io s.view 0 buf (offs.length * bsz)) s).2
    let (e, s) := call env (.setView .plain) s
    if e then .ok (true, s) else .ok (call env .freeType s)

/-- The list loop with its `break`, `DataMPIIO.cc` 502-519. -/
def listLoop (env : Env) (bsz max : Nat) (offs : List Nat) (i : Nat) (s : S) : Res S :=
  if i < offs.length ∧ 0 < max then do
    let (e, s) ← iol env bsz ((offs.drop i).take max) (some (i * bsz)) s
    if e then .ok (note e s) else listLoop env bsz max offs (i + max) s
  else .ok s
  termination_by offs.length - i

/-- The empty calls, `DataMPIIO.cc` 521-532. -/
def listRest (env : Env) (s : S) : Nat → Res S
  | 0 => .ok s
  | n + 1 => do
    let (e, s) ← iol env 0 [] none s
    listRest env (note e s) n

/-- `listIO`, `DataMPIIO.cc` 481-533: `read(bsz, sz, offset, d)` / `write(…)`, lines
535-549. -/
def listIO (env : Env) (bsz : Nat) (offs : List Nat) (s : S) : Res S :=
  let max := env.maxSize / (if bsz ≠ 0 then bsz * 2 else 1)
  if max = 0 then .ub else do
    let (top, s) := gatherMax env offs.length s
    let rem := sub64 (calls top max) (calls offs.length max)
    let s ← listLoop env bsz max offs 0 s
    listRest env s rem

/-- Bytes moved by a call: (buffer position, file address), in order.
Effect of the MPI calls of `DataMPIIO.cc`, by the MPI standard. -/
def Ev.bytes : Ev → List (Nat × Nat)
  | .io v pos (some b) len => (List.range len).map fun j => (b + j, v.addr (pos + j))
  | _ => []

/-- Number of bytes a call asks for (an `int` argument).
The count of the MPI calls of `DataMPIIO.cc` 163, 454 and 468. -/
def Ev.len : Ev → Nat
  | .io _ _ _ len => len
  | _ => 0

end Verif.DataIO
