import Verif.Basic
/-!
# `block_decomposition` and `block_decomposition_location`
-/
namespace Verif.Decomp

/-- `exseis_Contiguous_decomposition`,
`include/ExSeisDat/utils/decomposition/block_decomposition.h:33-40`. -/
structure Dec where
  globalOffset : Nat
  localSize : Nat
  deriving Repr, DecidableEq

/-- `Decomposition_index_location`: rank and local index. `block_decomposition.h` 90-96. -/
structure Loc where
  rank : Nat
  localIndex : Nat
  deriving Repr, DecidableEq

/-- `block_decomposition`, `src/utils/decomposition/block_decomposition.cc:21-85`.
`size_t` arithmetic is modulo `2^64`; line 24 asserts `num_ranks > 0`. -/
def blockDecomposition (rangeSize numRanks rank : Nat) : Res Dec :=
  if numRanks > 0 then
    let chunkSize := rangeSize / numRanks
    let remainder := rangeSize % numRanks
    let globalOffset := add64 (mul64 chunkSize rank) (min rank remainder)
    let extraPiece := if rank < remainder then 1 else 0
    let localSize := add64 chunkSize extraPiece
    .ok ⟨globalOffset, localSize⟩
  else .abort

/-- `block_decomposition_location`,
`src/utils/decomposition/block_decomposition.cc:95-130`.
Lines 98-99 are asserts; the division of line 121 is undefined for
`chunk_size = 0`. -/
def blockDecompositionLocation (rangeSize numRanks globalIndex : Nat) : Res Loc :=
  if globalIndex < rangeSize ∧ numRanks > 0 then
    let chunkSize := rangeSize / numRanks
    let remainder := rangeSize % numRanks
    if globalIndex < mul64 (add64 chunkSize 1) remainder then
      let rank := globalIndex / (add64 chunkSize 1)
      let localIndex := sub64 globalIndex (mul64 (add64 chunkSize 1) rank)
      .ok ⟨rank, localIndex⟩
    else
      let offsetGlobalIndex := sub64 globalIndex (mul64 (add64 chunkSize 1) remainder)
      if chunkSize = 0 then .ub
      else
        let offsetRank := offsetGlobalIndex / chunkSize
        let rank := add64 offsetRank remainder
        let localIndex := sub64 (sub64 globalIndex (mul64 chunkSize rank)) remainder
        .ok ⟨rank, localIndex⟩
  else .abort

end Verif.Decomp
