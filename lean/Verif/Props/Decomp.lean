import Verif.Decomp.Lemmas
/-!
# C01, C02: block decomposition

Specification vocabulary: the index set of a share is the list
`o, o+1, ..., o+s-1`.
-/
namespace Verif.Decomp

/-- The global indices a share stands for. -/
def Dec.elems (d : Dec) : List Nat := List.range' d.globalOffset d.localSize

/-- **C01.** On any number `n > 0` of ranks the shares, in rank order, spell out
`0, 1, ..., range-1` exactly (no gap, overlap or reordering); shares are
non-increasing in the rank and differ by at most one. -/
theorem C01_shares_tile (range n : Nat) (hn : 0 < n) (h64 : range < 2 ^ 64) :
    ∃ ds : List Dec, ds.length = n ∧
      (∀ r (h : r < ds.length), blockDecomposition range n r = .ok ds[r]) ∧
      ds.flatMap Dec.elems = List.range range ∧
      ds.Pairwise (fun a b => b.localSize ≤ a.localSize ∧ a.localSize ≤ b.localSize + 1) := by
  refine ⟨(List.range n).map (fun r => ⟨off range n r, sz range n r⟩), by simp, ?_, ?_, ?_⟩
  · intro r h
    simp only [List.length_map, List.length_range] at h
    rw [blockDecomposition_eq hn h h64]
    simp
  · rw [List.flatMap_map]
    exact (flatMap_range range n n).trans (by rw [off_last range n hn])
  · rw [List.pairwise_map]
    refine List.Pairwise.imp ?_ List.pairwise_lt_range
    intro a b hab
    simp only [sz]
    split <;> split <;> omega

example : (0 < 3) ∧ (10 < 2 ^ 64) ∧
    blockDecomposition 10 3 0 = .ok ⟨0, 4⟩ ∧ blockDecomposition 10 3 1 = .ok ⟨4, 3⟩ ∧
    blockDecomposition 10 3 2 = .ok ⟨7, 3⟩ := by decide

/-- **C01**, rejected input: no ranks is an assertion failure. -/
theorem C01_no_ranks (range r : Nat) : blockDecomposition range 0 r = .abort := rfl

/-- **C02.** The location of a global index is in bounds, lies in the share of
the rank it names at the local index it names. -/
theorem C02_location_inverse (range n i : Nat) (hn : 0 < n) (hi : i < range)
    (h64 : range < 2 ^ 64) :
    ∃ l d, blockDecompositionLocation range n i = .ok l ∧
      blockDecomposition range n l.rank = .ok d ∧ l.rank < n ∧
      l.localIndex < d.localSize ∧ d.globalOffset + l.localIndex = i := by
  obtain ⟨l, h1, h2, h3, h4⟩ := location_eq hn hi h64
  exact ⟨l, _, h1, blockDecomposition_eq hn h2 h64, h2, h3, h4⟩

example : (0 < 3) ∧ (5 < 10) ∧ (10 < 2 ^ 64) ∧
    blockDecompositionLocation 10 3 5 = .ok ⟨1, 1⟩ := by decide

/-- **C02**, uniqueness: only the named rank owns the index, and only at the
named local index. -/
theorem C02_location_unique (range n i r k : Nat) (hn : 0 < n)
    (h64 : range < 2 ^ 64) (hr : r < n) (d : Dec)
    (hd : blockDecomposition range n r = .ok d) (hk : k < d.localSize)
    (hki : d.globalOffset + k = i) :
    blockDecompositionLocation range n i = .ok ⟨r, k⟩ := by
  rw [blockDecomposition_eq hn hr h64] at hd
  injection hd with hd
  subst hd
  simp only at hk hki
  have hlt : off range n (r + 1) ≤ range := off_le range n (r + 1) hn hr
  rw [off_succ] at hlt
  obtain ⟨l, h1, h2, h3, h4⟩ := location_eq hn (i := i) (range := range) (by omega) h64
  have hre : l.rank = r := by
    rcases Nat.lt_trichotomy l.rank r with h | h | h
    · have := off_mono range n (Nat.succ_le_of_lt h)
      rw [Nat.succ_eq_add_one, off_succ] at this
      omega
    · exact h
    · have := off_mono range n (Nat.succ_le_of_lt h)
      rw [Nat.succ_eq_add_one, off_succ] at this
      omega
  cases l with
  | mk lr li =>
    simp only at hre h3 h4
    subst hre
    rw [h1]
    have : li = k := by omega
    subst this
    rfl

example : blockDecomposition 10 3 2 = .ok ⟨7, 3⟩ ∧ 2 < 3 ∧ 7 + 2 = 9 ∧
    blockDecompositionLocation 10 3 9 = .ok ⟨2, 2⟩ := by decide

/-- **C02**, rejected input: an index outside the range is an assertion failure. -/
theorem C02_out_of_range (range n i : Nat) (h : range ≤ i) :
    blockDecompositionLocation range n i = .abort := by
  unfold blockDecompositionLocation
  rw [if_neg]
  omega

example : (10 : Nat) ≤ 10 ∧ blockDecompositionLocation 10 3 10 = .abort := by decide

end Verif.Decomp
