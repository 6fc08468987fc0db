import Verif.Util.Sglobal

/-!
# Repeating the traces of a file, `util/makerep.cc`
-/

namespace Verif.Util
open Verif.Decomp

/-- A write of bytes that were read from the input: `len` bytes to `dst` of the output that are those from `src` of the
input on (`in->read` and `out->write` of `util/makerep.cc`). Reads and writes are taken to succeed and to be whole.
(`util/makerep.cc` 21-45 and 217-256.) -/
structure Copy where
  dst : Nat
  len : Nat
  src : Nat
  deriving Repr, DecidableEq

/-- `SEGY_utils::getHOSz`, used in `util/makerep.cc` 27, 181 and 224 (3200 bytes of text and 400 binary). -/
def headerSz : Nat := 3600

/-- `smallCopy`, `util/makerep.cc` 21-45: the first process does all, the others write nothing. A file below the header
size makes `std::copy` of 38 undefined. -/
def smallCopy (fsz rep rank : Nat) : Res (List Copy) :=
  if rank ≠ 0 then .ok (⟨0, 0, 0⟩ :: (List.range (rep - 1)).map fun j => ⟨headerSz + (fsz - headerSz) * (j + 1), 0, 0⟩)
  else if fsz < headerSz then .ub
  else .ok (⟨0, fsz, 0⟩ :: (List.range (rep - 1)).map fun j =>
    ⟨headerSz + (fsz - headerSz) * (j + 1), fsz - headerSz, headerSz⟩)

/-- One round of the loop of `mpiMakeSEGYCopyNaive`, `util/makerep.cc` 228-255, from byte `i` of the input with the share
`d` (230-232). A first share below the header size makes `std::move` of 240-242 undefined. -/
def naiveRound (fsz rep i : Nat) (d : Dec) : Res (List Copy) :=
  let out := fun (go ls src : Nat) => (List.range (rep - 1)).map fun j =>
    (⟨add64 (headerSz + (fsz - headerSz) * (j + 1) + i) go, ls, src⟩ : Copy)
  let first : Copy := ⟨i + d.globalOffset, d.localSize, i + d.globalOffset⟩
  if i = 0 then
    if d.globalOffset = 0 then
      if d.localSize < headerSz then .ub
      else .ok (first :: out 0 (d.localSize - headerSz) headerSz)
    else .ok (first :: out (sub64 d.globalOffset headerSz) d.localSize d.globalOffset)
  else .ok (first :: out d.globalOffset d.localSize (i + d.globalOffset))

/-- The loop of `mpiMakeSEGYCopyNaive`, `util/makerep.cc` 228-255: `step` bytes of the input at a time. `dec` is the
decomposition chosen by the template argument (230-232), given the size and start of the piece. The first argument bounds
the rounds (`i` grows by `step`, not zero). -/
def naiveCopy (fsz rep step : Nat) (dec : Nat → Nat → Res Dec) : Nat → Nat → Res (List Copy)
  | 0, _ => .ok []
  | fuel + 1, i =>
    if i < fsz then do
      let d ← dec (if i + step < fsz then step else fsz - i) i
      let l ← naiveRound fsz rep i d
      let rest ← naiveCopy fsz rep step dec fuel (i + step)
      .ok (l ++ rest)
    else .ok []

/-- The bytes copied at a time, `util/makerep.cc` 223-226: `512` blocks of `2^21` bytes on each process. -/
def stepSz (numRank : Nat) : Nat := numRank * (512 * 2097152)

/-- `mpiMakeSEGYCopyNaive<true>`, `util/makerep.cc` 217-256, on process `rank`. -/
def naive1 (fsz rep numRank rank : Nat) : Res (List Copy) :=
  naiveCopy fsz rep (stepSz numRank) (fun rblock _ => blockDecomposition rblock numRank rank) fsz 0

/-- `mpiMakeSEGYCopyNaive<false>`, `util/makerep.cc` 217-256, on process `rank`. -/
def naive2 (fsz rep numRank rank : Nat) : Res (List Copy) :=
  naiveCopy fsz rep (stepSz numRank) (fun rblock i => blockDecomp rblock 2097152 numRank rank i) fsz 0

end Verif.Util
