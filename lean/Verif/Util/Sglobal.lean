import Verif.Decomp.Model

/-!
# The decompositions of the tools: whole blocks, and uneven
-/

namespace Verif.Util
open Verif.Decomp

/-- `blockDecomp`, `util/sglobal.cc` 34-75: share of process `rank` of `sz` bytes that start at byte `off` of a file, in
blocks of `bsz` bytes. `size_t` arithmetic wraps; the remainders by zero of 38 and 40 are undefined; 45 asserts. -/
def blockDecomp (sz bsz numRank rank off : Nat) : Res Dec :=
  if bsz = 0 then .ub
  else
    let rstart := sub64 bsz (off % bsz)
    let rend := add64 off sz % bsz
    let inner := sub64 (sub64 sz rstart) rend
    let bcnt := add64 (inner / bsz) 2
    if inner % bsz ≠ 0 then .abort
    else do
      let d ← blockDecomposition bcnt numRank rank
      let go := mul64 d.globalOffset bsz
      let ls := mul64 d.localSize bsz
      if ls = 0 then .ok ⟨sz, 0⟩
      else
        let ls' := if rank = 0 then sub64 ls (sub64 bsz rstart) else ls
        let go' := if rank = 0 then go else sub64 go (sub64 bsz rstart)
        let ls'' := if ls' ≠ 0 ∧ add64 go' ls' > sz then sub64 ls' (sub64 bsz rend) else ls'
        .ok ⟨go', ls''⟩

/-- The share of process `rank` before correction, `util/sglobal.cc` 11-13. The quotient is taken in exact arithmetic and
rounded half up: the `double` division and `lround` give that for `sz * rank` below `2^52`. -/
def lobShare (sz numRank rank : Nat) : Nat :=
  (2 * (sz * (rank + 1)) + numRank * (numRank + 1) / 2) / (2 * (numRank * (numRank + 1) / 2))

/-- The sum over all processes, `util/sglobal.cc` 15 (`comm->sum`), modulo `2^64`. -/
def lobSum (sz numRank : Nat) : Nat := ((List.range numRank).map (lobShare sz numRank)).sum % 2 ^ 64

/-- The gathered shares, `util/sglobal.cc` 15-20: the first process takes what is left, modulo `2^64`. -/
def lobShares (sz numRank : Nat) : List Nat :=
  (List.range numRank).map fun r =>
    if r = 0 then add64 (lobShare sz numRank r) (sub64 sz (lobSum sz numRank)) else lobShare sz numRank r

/-- `std::accumulate` with an `unsigned` start value, `util/sglobal.cc` 22 and 29: the sum is kept in 32 bits. -/
def accumulate32 (l : List Nat) : Nat := l.foldl (fun acc v => (acc + v) % 2 ^ 32) 0

/-- `lobdecompose`, `util/sglobal.cc` 8-32: offset, size and the largest size. The maximum of no shares (no process) is
undefined (21); 22 asserts. -/
def lobdecompose (sz numRank rank : Nat) : Res (Nat × Nat × Nat) :=
  let nts := lobShares sz numRank
  match nts.max? with
  | none => .ub
  | some biggest =>
    if sz ≠ accumulate32 nts then .abort
    else
      match nts[rank]? with
      | none => .ub
      | some lnt => .ok (if rank = 0 then 0 else accumulate32 (nts.take rank), lnt, biggest)

end Verif.Util
