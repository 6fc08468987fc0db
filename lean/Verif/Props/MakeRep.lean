import Verif.Util.MakeRep
import Verif.Props.Sglobal
import Mathlib.Tactic.Ring

/-!
# C59: repeating the traces of a file
-/

namespace Verif.Util
open Verif.Decomp

/-- The byte of the input that belongs at byte `p` of the output: the header once, then the traces again and again. -/
def wanted (fsz p : Nat) : Nat := if p < 3600 then p else 3600 + (p - 3600) % (fsz - 3600)

/-- The writes produce the header and `rep` times the traces, whatever their order: every byte written is inside that
file and has the contents that belong there, and every byte of the file is written. -/
def Repeats (fsz rep : Nat) (cs : List Copy) : Prop :=
  (∀ c ∈ cs, ∀ k, k < c.len → c.dst + k < 3600 + (fsz - 3600) * rep ∧ c.src + k = wanted fsz (c.dst + k)) ∧
  ∀ p, p < 3600 + (fsz - 3600) * rep → ∃ c ∈ cs, c.dst ≤ p ∧ p < c.dst + c.len

/-- Where byte `q` of the input goes in repetition `j`. -/
theorem wanted_rep {fsz q j : Nat} (hq : 3600 ≤ q) (hf : q < fsz) :
    wanted fsz (3600 + (fsz - 3600) * j + (q - 3600)) = q := by
  unfold wanted
  rw [if_neg (by omega), show 3600 + (fsz - 3600) * j + (q - 3600) - 3600 = (q - 3600) + (fsz - 3600) * j by omega,
    Nat.add_mul_mod_self_left, Nat.mod_eq_of_lt (by omega)]
  omega

theorem wanted_first {fsz q : Nat} (hf : q < fsz) : wanted fsz q = q := by
  by_cases h : q < 3600
  · unfold wanted; rw [if_pos h]
  · have := wanted_rep (j := 0) (show 3600 ≤ q by omega) hf
    rw [Nat.mul_zero] at this
    rw [show q = 3600 + 0 + (q - 3600) by omega]
    rw [this]
    omega

/-- A byte of the output comes from a byte of the input in some repetition. -/
theorem split_rep {fsz rep p : Nat} (hf : 3600 < fsz) (hp : p < 3600 + (fsz - 3600) * rep) (h : 3600 ≤ p) :
    ∃ q j, 3600 ≤ q ∧ q < fsz ∧ j < rep ∧ p = 3600 + (fsz - 3600) * j + (q - 3600) := by
  have h1 := Nat.div_add_mod (p - 3600) (fsz - 3600)
  have h2 := Nat.mod_lt (p - 3600) (show 0 < fsz - 3600 by omega)
  refine ⟨3600 + (p - 3600) % (fsz - 3600), (p - 3600) / (fsz - 3600), by omega, by omega, ?_, by omega⟩
  rw [Nat.div_lt_iff_lt_mul (by omega), Nat.mul_comm]
  omega

theorem rep_le {fsz rep j q : Nat} (hj : j < rep) (hq : q < fsz) (h : 3600 ≤ q) :
    3600 + (fsz - 3600) * j + (q - 3600) < 3600 + (fsz - 3600) * rep := by
  have := Nat.mul_le_mul_left (fsz - 3600) (show j + 1 ≤ rep by omega)
  rw [Nat.mul_add, Nat.mul_one] at this
  omega

theorem in_rep {fsz rep q : Nat} (hr : 1 ≤ rep) (hq : q < fsz) : q < 3600 + (fsz - 3600) * rep := by
  have := Nat.mul_le_mul_left (fsz - 3600) hr
  omega

/-- C59, small files: for every file with a header, every repetition count and number of processes, the copy through the
first process repeats the traces. -/
theorem C59_small (fsz rep N : Nat) (hf : 3600 ≤ fsz) (hr : 1 ≤ rep) (hN : 1 ≤ N) :
    ∃ cs : List (List Copy), cs.length = N ∧ (∀ r (h : r < cs.length), smallCopy fsz rep r = .ok cs[r]) ∧
      Repeats fsz rep cs.flatten := by
  have hrest : ∀ r, r ≠ 0 → smallCopy fsz rep r = .ok (⟨0, 0, 0⟩ :: (List.range (rep - 1)).map fun j =>
      ⟨headerSz + (fsz - headerSz) * (j + 1), 0, 0⟩) := by
    intro r h; unfold smallCopy; rw [if_pos h]
  have hfirst : smallCopy fsz rep 0 = .ok (⟨0, fsz, 0⟩ :: (List.range (rep - 1)).map fun j =>
      ⟨headerSz + (fsz - headerSz) * (j + 1), fsz - headerSz, headerSz⟩) := by
    unfold smallCopy headerSz
    rw [if_neg (by simp), if_neg (by omega)]
  refine ⟨(List.range N).map fun r => match smallCopy fsz rep r with | .ok l => l | _ => [], by simp, ?_, ?_, ?_⟩
  · intro r h
    simp only [List.getElem_map, List.getElem_range]
    by_cases h0 : r = 0
    · subst h0; rw [hfirst]
    · rw [hrest r h0]
  · intro c hc k hk
    rw [List.mem_flatten] at hc
    obtain ⟨l, hl, hc⟩ := hc
    rw [List.mem_map] at hl
    obtain ⟨r, _, rfl⟩ := hl
    by_cases h0 : r = 0
    · subst h0
      rw [hfirst] at hc
      rw [List.mem_cons, List.mem_map] at hc
      rcases hc with rfl | ⟨j, hj, rfl⟩
      · simp only [Nat.zero_add] at hk ⊢
        exact ⟨in_rep hr hk, (wanted_first hk).symm⟩
      · rw [List.mem_range] at hj
        simp only [headerSz] at hk ⊢
        have h1 := rep_le (rep := rep) (show j + 1 < rep by omega) (show 3600 + k < fsz by omega) (by omega)
        have h2 := wanted_rep (j := j + 1) (show 3600 ≤ 3600 + k by omega) (show 3600 + k < fsz by omega)
        rw [show 3600 + k - 3600 = k by omega] at h1 h2
        exact ⟨h1, h2.symm⟩
    · rw [hrest r h0] at hc
      rw [List.mem_cons, List.mem_map] at hc
      rcases hc with rfl | ⟨j, hj, rfl⟩
      · simp at hk
      · simp at hk
  · intro p hp
    have hmem : ∀ c, c ∈ (⟨0, fsz, 0⟩ :: (List.range (rep - 1)).map fun j =>
        (⟨headerSz + (fsz - headerSz) * (j + 1), fsz - headerSz, headerSz⟩ : Copy)) → c ∈ ((List.range N).map fun r =>
        match smallCopy fsz rep r with | .ok l => l | _ => []).flatten := by
      intro c hc
      rw [List.mem_flatten]
      refine ⟨_, List.mem_map.2 ⟨0, List.mem_range.2 (by omega), rfl⟩, ?_⟩
      rw [hfirst]
      exact hc
    by_cases hlt : p < fsz
    · exact ⟨_, hmem _ List.mem_cons_self, by simp, by simpa using hlt⟩
    · have hf' : 3600 < fsz := by
        by_contra hcon
        have : fsz - 3600 = 0 := by omega
        rw [this, Nat.zero_mul] at hp
        omega
      obtain ⟨q, j, h1, h2, h3, h4⟩ := split_rep hf' hp (by omega)
      have hj : 1 ≤ j := by
        by_contra hcon
        rw [show j = 0 by omega, Nat.mul_zero] at h4
        omega
      refine ⟨_, hmem _ (List.mem_cons_of_mem _ (List.mem_map.2 ⟨j - 1, List.mem_range.2 (by omega), rfl⟩)), ?_, ?_⟩
      · simp only [headerSz]
        rw [show j - 1 + 1 = j by omega]
        omega
      · simp only [headerSz]
        rw [show j - 1 + 1 = j by omega]
        omega

example : smallCopy 4000 3 0 = .ok [⟨0, 4000, 0⟩, ⟨4000, 400, 3600⟩, ⟨4400, 400, 3600⟩] := by decide

/-- One piece, whatever the decomposition: it must spell out the file, with the header in the first share. -/
theorem one_piece (fsz rep step N : Nat) (dec : Nat → Nat → Nat → Res Dec) (ds : List Dec) (hf : 3600 < fsz)
    (hstep : fsz ≤ step) (hr : 1 ≤ rep) (h64 : 3600 + (fsz - 3600) * rep + fsz < 2 ^ 64) (hlen : ds.length = N)
    (hdec : ∀ r (h : r < ds.length), dec r fsz 0 = .ok ds[r]) (htile : ds.flatMap Dec.elems = List.range fsz)
    (hhead : ∀ d ∈ ds, (d.globalOffset = 0 ∧ 3600 ≤ d.localSize) ∨ 3600 ≤ d.globalOffset)
    (hend : ∀ d ∈ ds, d.globalOffset ≤ fsz) :
    ∃ cs : List (List Copy), cs.length = N ∧ (∀ r (h : r < cs.length), naiveCopy fsz rep step (dec r) fsz 0 = .ok cs[r]) ∧
      Repeats fsz rep cs.flatten := by
  let W : Dec → List Copy := fun d => ⟨d.globalOffset, d.localSize, d.globalOffset⟩ ::
    (List.range (rep - 1)).map fun j => ⟨3600 + (fsz - 3600) * (j + 1) + (d.globalOffset - 3600),
      if d.globalOffset = 0 then d.localSize - 3600 else d.localSize, max 3600 d.globalOffset⟩
  have hin : ∀ d ∈ ds, ∀ k, k < d.localSize → d.globalOffset + k < fsz := by
    intro d hd k hk
    have : d.globalOffset + k ∈ ds.flatMap Dec.elems := by
      rw [List.mem_flatMap]
      refine ⟨d, hd, ?_⟩
      unfold Dec.elems
      rw [List.mem_range'_1]
      omega
    rw [htile, List.mem_range] at this
    exact this
  have hround : ∀ d ∈ ds, naiveRound fsz rep 0 d = .ok (W d) := by
    intro d hd
    have hle := hend d hd
    unfold naiveRound
    simp only [Nat.zero_add, Nat.add_zero, ↓reduceIte, W, headerSz]
    have hmul : ∀ j, j < rep - 1 → (fsz - 3600) * (j + 1) ≤ (fsz - 3600) * rep := fun j hj => Nat.mul_le_mul_left _ (by omega)
    rcases hhead d hd with ⟨h0, hls⟩ | h1
    · rw [if_pos h0, if_neg (by omega), if_pos h0, h0]
      refine congrArg Res.ok (congrArg (List.cons _) (List.map_congr_left ?_))
      intro j hj
      rw [List.mem_range] at hj
      have := hmul j hj
      rw [add64_eq (by omega)]
      simp
    · rw [if_neg (by omega), if_neg (by omega), sub64_eq h1 (by omega)]
      refine congrArg Res.ok (congrArg (List.cons _) (List.map_congr_left ?_))
      intro j hj
      rw [List.mem_range] at hj
      have := hmul j hj
      rw [add64_eq (by omega), Nat.max_eq_right h1]
  have hcopy : ∀ r (h : r < ds.length), naiveCopy fsz rep step (dec r) fsz 0 = .ok (W ds[r]) := by
    intro r h
    obtain ⟨n, rfl⟩ : ∃ n, fsz = n + 1 := ⟨fsz - 1, by omega⟩
    unfold naiveCopy
    rw [if_pos (by omega), if_neg (by omega), Nat.sub_zero, hdec r h, Res.ok_bind, hround _ (List.getElem_mem h), Res.ok_bind]
    have : naiveCopy (n + 1) rep step (dec r) n (0 + step) = .ok [] := by
      cases n with
      | zero => rfl
      | succ n => unfold naiveCopy; rw [if_neg (by omega)]
    rw [this, Res.ok_bind, List.append_nil]
  refine ⟨ds.map W, by simpa using hlen, ?_, ?_, ?_⟩
  · intro r h
    rw [List.length_map] at h
    rw [hcopy r h, List.getElem_map]
  · intro c hc k hk
    rw [List.mem_flatten] at hc
    obtain ⟨l, hl, hc⟩ := hc
    rw [List.mem_map] at hl
    obtain ⟨d, hd, rfl⟩ := hl
    rw [List.mem_cons, List.mem_map] at hc
    rcases hc with rfl | ⟨j, hj, rfl⟩
    · simp only at hk ⊢
      have := hin d hd k hk
      exact ⟨in_rep hr this, (wanted_first this).symm⟩
    · rw [List.mem_range] at hj
      simp only at hk ⊢
      rcases hhead d hd with ⟨h0, hls⟩ | h1
      · rw [if_pos h0] at hk
        have h3 := hin d hd (3600 + k) (by omega)
        rw [h0, Nat.zero_add] at h3
        have h1 := rep_le (rep := rep) (show j + 1 < rep by omega) h3 (by omega)
        have h2 := wanted_rep (j := j + 1) (show 3600 ≤ 3600 + k by omega) h3
        rw [show 3600 + k - 3600 = k by omega] at h1 h2
        rw [h0, Nat.zero_sub, Nat.add_zero, Nat.max_eq_left (by omega)]
        exact ⟨h1, h2.symm⟩
      · rw [if_neg (by omega)] at hk
        have h3 := hin d hd k hk
        have h4 := rep_le (rep := rep) (show j + 1 < rep by omega) h3 (by omega)
        have h2 := wanted_rep (j := j + 1) (show 3600 ≤ d.globalOffset + k by omega) h3
        rw [show d.globalOffset + k - 3600 = (d.globalOffset - 3600) + k by omega, ← Nat.add_assoc] at h4 h2
        rw [Nat.max_eq_right h1]
        exact ⟨h4, h2.symm⟩
  · intro p hp
    have hfind : ∀ q, q < fsz → ∃ d ∈ ds, d.globalOffset ≤ q ∧ q < d.globalOffset + d.localSize := by
      intro q hq
      have : q ∈ ds.flatMap Dec.elems := by rw [htile, List.mem_range]; exact hq
      rw [List.mem_flatMap] at this
      obtain ⟨d, hd, he⟩ := this
      unfold Dec.elems at he
      rw [List.mem_range'_1] at he
      exact ⟨d, hd, he⟩
    have hmem : ∀ d ∈ ds, ∀ c ∈ W d, c ∈ (ds.map W).flatten := by
      intro d hd c hc
      rw [List.mem_flatten]
      exact ⟨_, List.mem_map.2 ⟨d, hd, rfl⟩, hc⟩
    by_cases hlt : p < fsz
    · obtain ⟨d, hd, h1, h2⟩ := hfind p hlt
      exact ⟨_, hmem d hd _ List.mem_cons_self, h1, h2⟩
    · obtain ⟨q, j, h1, h2, h3, h4⟩ := split_rep hf hp (by omega)
      have hj : 1 ≤ j := by
        by_contra hcon
        rw [show j = 0 by omega, Nat.mul_zero] at h4
        omega
      obtain ⟨d, hd, h5, h6⟩ := hfind q h2
      refine ⟨_, hmem d hd _ (List.mem_cons_of_mem _ (List.mem_map.2 ⟨j - 1, List.mem_range.2 (by omega), rfl⟩)), ?_⟩
      simp only
      rw [show j - 1 + 1 = j by omega]
      rcases hhead d hd with ⟨h0, hls⟩ | h7
      · rw [if_pos h0]
        omega
      · rw [if_neg (by omega)]
        omega

/-- C59, plain version (partial). For every file of at least a header size for each process that is copied in one piece
(1 GiB for each process), every repetition count and number of processes: the writes of all processes repeat the traces.

The full claim is for every file: `C59_pieces_refuted`. -/
theorem C59_naive_partial (fsz rep N : Nat) (hN : 1 ≤ N) (hf : 3600 < fsz) (hh : 3600 ≤ fsz / N) (hstep' : fsz ≤ N * 1073741824)
    (hr : 1 ≤ rep) (h64 : 3600 + (fsz - 3600) * rep + fsz < 2 ^ 64) :
    ∃ cs : List (List Copy), cs.length = N ∧ (∀ r (h : r < cs.length), naive1 fsz rep N r = .ok cs[r]) ∧
      Repeats fsz rep cs.flatten := by
  have hstep : fsz ≤ stepSz N := by unfold stepSz; omega
  refine one_piece fsz rep (stepSz N) N (fun r rblock _ => blockDecomposition rblock N r)
    ((List.range N).map (fun r => ⟨off fsz N r, sz fsz N r⟩)) hf hstep hr h64 (by simp) ?_ ?_ ?_ ?_
  · intro r h
    simp only [List.length_map, List.length_range] at h
    simp only [List.getElem_map, List.getElem_range]
    exact blockDecomposition_eq (by omega) h (by omega)
  · rw [List.flatMap_map]
    exact (flatMap_range fsz N N).trans (by rw [off_last fsz N (by omega)])
  · intro d hd
    rw [List.mem_map] at hd
    obtain ⟨r, _, rfl⟩ := hd
    simp only
    by_cases h0 : r = 0
    · subst h0
      exact Or.inl ⟨off_zero _ _, by unfold sz; omega⟩
    · right
      unfold off
      have : 3600 * 1 ≤ fsz / N * r := Nat.mul_le_mul hh (by omega)
      omega
  · intro d hd
    rw [List.mem_map] at hd
    obtain ⟨r, hr, rfl⟩ := hd
    rw [List.mem_range] at hr
    exact off_le _ _ _ (by omega) (by omega)

/-- A file of 10000 bytes on two processes, its traces three times. -/
example : naive1 10000 3 2 0 = .ok [⟨0, 5000, 0⟩, ⟨10000, 1400, 3600⟩, ⟨16400, 1400, 3600⟩] ∧
    naive1 10000 3 2 1 = .ok [⟨5000, 5000, 5000⟩, ⟨11400, 5000, 5000⟩, ⟨17800, 5000, 5000⟩] ∧ 3600 ≤ 10000 / 2 := by
  constructor
  · rfl
  · constructor
    · rfl
    · decide

/-- C59, version with whole blocks (partial). As `C59_naive_partial`, for files of at least one block of `2^21` bytes. -/
theorem C59_blocks_partial (fsz rep N : Nat) (hN : 1 ≤ N) (hf : 2097152 ≤ fsz) (hstep' : fsz ≤ N * 1073741824)
    (hr : 1 ≤ rep) (h64 : 3600 + (fsz - 3600) * rep + fsz + 2 * 2097152 < 2 ^ 64) :
    ∃ cs : List (List Copy), cs.length = N ∧ (∀ r (h : r < cs.length), naive2 fsz rep N r = .ok cs[r]) ∧
      Repeats fsz rep cs.flatten := by
  have hstep : fsz ≤ stepSz N := by unfold stepSz; omega
  have hq : 0 / 2097152 < (0 + fsz) / 2097152 := by omega
  obtain ⟨ds, h1, h2, h3, _⟩ := C52_tiles_partial fsz 2097152 N 0 (by omega) (by omega) hq (by omega)
  obtain ⟨k, hk, e1, e2, e3⟩ := blocks_eq (show 0 < 2097152 by omega) hq
  have key : ∀ d ∈ ds, ((d.globalOffset = 0 ∧ 3600 ≤ d.localSize) ∨ 3600 ≤ d.globalOffset) ∧ d.globalOffset ≤ fsz := by
    intro d hd
    obtain ⟨r, hr, rfl⟩ := List.getElem_of_mem hd
    obtain ⟨d', g1, g2, g3, g4⟩ := blockDecomp_eq fsz 2097152 N r 0 (by omega) (by omega) (by omega) (by omega) k hk e1 e2 e3
    rw [h2 r hr] at g1
    cases g1
    generalize ds[r] = d at *
    have hcut1 : 3600 ≤ cut k 2097152 (0 % 2097152) fsz N 1 := by
      have : 1 ≤ off k N 1 := by
        unfold off
        have h := Nat.div_add_mod k N
        by_cases hz : k % N = 0
        · have : k / N ≠ 0 := by
            intro h0
            rw [hz, h0] at h
            omega
          omega
        · omega
      unfold cut
      have := Nat.mul_le_mul_right 2097152 this
      omega
    have hmono : ∀ a b, a ≤ b → cut k 2097152 (0 % 2097152) fsz N a ≤ cut k 2097152 (0 % 2097152) fsz N b := by
      intro a b hab
      unfold cut
      have := Nat.mul_le_mul_right 2097152 (off_mono k N hab)
      omega
    have hc0 : cut k 2097152 (0 % 2097152) fsz N 0 = 0 := by unfold cut; rw [off_zero]; simp
    have hle : ∀ a, cut k 2097152 (0 % 2097152) fsz N a ≤ fsz := fun a => Nat.min_le_left _ _
    by_cases hz : d.localSize = 0
    · have := g4 hz
      omega
    · have g5 := (g3 hz).1
      have := hle r
      by_cases h0 : r = 0
      · subst h0
        rw [hc0] at g2 g5
        simp only [Nat.zero_add] at g2
        omega
      · have := hmono 1 r (by omega)
        omega
  exact one_piece fsz rep (stepSz N) N (fun r rblock i => blockDecomp rblock 2097152 N r i) ds (by omega) hstep hr (by omega) h1
    h2 h3 (fun d hd => (key d hd).1) (fun d hd => (key d hd).2)

example : 2097152 ≤ 3000000 ∧ 3000000 ≤ 2 * 1073741824 ∧ blockDecomp 3000000 2097152 2 0 0 = .ok ⟨0, 2097152⟩ ∧
    blockDecomp 3000000 2097152 2 1 0 = .ok ⟨2097152, 902848⟩ := by decide

/-- C59 fails for every file that takes a second piece longer than a header, every repetition count of two or more and
every number of processes: the repetitions of the second piece are written a header size too far. -/
theorem C59_pieces_refuted (fsz rep N : Nat) (hN : 1 ≤ N) (hf' : N * 1073741824 + 3600 < fsz) (hr : 2 ≤ rep)
    (h64 : 3600 + (fsz - 3600) * rep + fsz < 2 ^ 64) :
    ∃ cs, naive1 fsz rep N 0 = .ok cs ∧ ∃ c ∈ cs, 0 < c.len ∧ c.dst < 3600 + (fsz - 3600) * rep ∧ c.src ≠ wanted fsz c.dst := by
  have hf : stepSz N + 3600 < fsz := by unfold stepSz; omega
  have hst : 1073741824 ≤ stepSz N := by unfold stepSz; omega
  -- every round succeeds
  have hdec : ∀ s, s < 2 ^ 64 → blockDecomposition s N 0 = .ok ⟨0, sz s N 0⟩ := by
    intro s hs
    rw [blockDecomposition_eq (by omega) (by omega) hs, off_zero]
  have hround : ∀ i d, i ≠ 0 → ∃ l, naiveRound fsz rep i d = .ok l := by
    intro i d hi
    unfold naiveRound
    simp only
    rw [if_neg hi]
    exact ⟨_, rfl⟩
  have hrest : ∀ fuel i, i ≠ 0 → ∃ cs, naiveCopy fsz rep (stepSz N) (fun rblock _ => blockDecomposition rblock N 0) fuel i = .ok cs := by
    intro fuel
    induction fuel with
    | zero => intro i _; exact ⟨[], rfl⟩
    | succ fuel ih =>
      intro i hi
      unfold naiveCopy
      by_cases hlt : i < fsz
      · rw [if_pos hlt, hdec _ (by split <;> omega), Res.ok_bind]
        obtain ⟨l, hl⟩ := hround i ⟨0, sz (if i + stepSz N < fsz then stepSz N else fsz - i) N 0⟩ hi
        obtain ⟨cs, hcs⟩ := ih (i + stepSz N) (by omega)
        rw [hl, Res.ok_bind, hcs, Res.ok_bind]
        exact ⟨_, rfl⟩
      · rw [if_neg hlt]
        exact ⟨[], rfl⟩
  obtain ⟨n, hn⟩ : ∃ n, fsz = n + 2 := ⟨fsz - 2, by omega⟩
  have hs0 : ∀ s, 1 ≤ s → 1 ≤ sz s N 0 := by
    intro s hs
    unfold sz
    have h := Nat.div_add_mod s N
    by_cases hz : s % N = 0
    · have : s / N ≠ 0 := by
        intro h0
        rw [hz, h0] at h
        omega
      exact Nat.le_trans (Nat.pos_of_ne_zero this) (Nat.le_add_right _ _)
    · rw [if_pos (by omega)]; exact Nat.le_add_left _ _
  have hsN : 3600 ≤ sz (stepSz N) N 0 := by
    unfold sz stepSz
    rw [Nat.mul_div_cancel_left _ (by omega)]
    omega
  have hpos2 : stepSz N < fsz := by omega
  obtain ⟨rest, hrest2⟩ := hrest n (stepSz N + stepSz N) (by omega)
  have hrep : (fsz - 3600) * 2 ≤ (fsz - 3600) * rep := Nat.mul_le_mul_left _ hr
  refine ⟨(⟨0, sz (stepSz N) N 0, 0⟩ :: (List.range (rep - 1)).map fun j =>
      ⟨add64 (headerSz + (fsz - headerSz) * (j + 1) + 0) 0, sz (stepSz N) N 0 - headerSz, headerSz⟩) ++
      ((⟨stepSz N, sz (if stepSz N + stepSz N < fsz then stepSz N else fsz - stepSz N) N 0, stepSz N⟩ ::
        (List.range (rep - 1)).map fun j => ⟨add64 (headerSz + (fsz - headerSz) * (j + 1) + stepSz N) 0,
          sz (if stepSz N + stepSz N < fsz then stepSz N else fsz - stepSz N) N 0, stepSz N⟩) ++ rest),
    ?_, ⟨3600 + (fsz - 3600) * 1 + stepSz N, sz (if stepSz N + stepSz N < fsz then stepSz N else fsz - stepSz N) N 0,
    stepSz N⟩, ?_, ?_, ?_, ?_⟩
  · unfold naive1
    conv => lhs; arg 5; rw [hn]
    rw [naiveCopy, if_pos (by omega), if_pos (by omega), hdec _ (by omega), Res.ok_bind]
    have r1 : naiveRound fsz rep 0 ⟨0, sz (stepSz N) N 0⟩ = .ok (⟨0, sz (stepSz N) N 0, 0⟩ ::
        (List.range (rep - 1)).map fun j =>
          ⟨add64 (headerSz + (fsz - headerSz) * (j + 1) + 0) 0, sz (stepSz N) N 0 - headerSz, headerSz⟩) := by
      unfold naiveRound
      simp only [Nat.zero_add, ↓reduceIte]
      rw [if_neg (by unfold headerSz; omega)]
    have r2 : naiveRound fsz rep (stepSz N) ⟨0, sz (if stepSz N + stepSz N < fsz then stepSz N else fsz - stepSz N) N 0⟩ =
        .ok (⟨stepSz N, sz (if stepSz N + stepSz N < fsz then stepSz N else fsz - stepSz N) N 0, stepSz N⟩ ::
        (List.range (rep - 1)).map fun j => ⟨add64 (headerSz + (fsz - headerSz) * (j + 1) + stepSz N) 0,
          sz (if stepSz N + stepSz N < fsz then stepSz N else fsz - stepSz N) N 0, stepSz N⟩) := by
      unfold naiveRound
      simp only [Nat.add_zero]
      rw [if_neg (by omega)]
    rw [r1, Res.ok_bind, naiveCopy, Nat.zero_add, if_pos hpos2, hdec _ (by split <;> omega), Res.ok_bind, r2, Res.ok_bind, hrest2,
      Res.ok_bind, Res.ok_bind]
  · rw [List.mem_append, List.mem_append, List.mem_cons (a := (⟨3600 + (fsz - 3600) * 1 + stepSz N, _, _⟩ : Copy))]
    right; left
    apply List.mem_cons_of_mem
    rw [List.mem_map]
    refine ⟨0, List.mem_range.2 (by omega), ?_⟩
    unfold headerSz
    rw [add64_eq (by omega), Nat.zero_add, Nat.add_zero]
  · exact hs0 _ (by split <;> omega)
  · simp only
    omega
  · simp only
    unfold wanted
    rw [if_neg (by omega), show 3600 + (fsz - 3600) * 1 + stepSz N - 3600 = stepSz N + (fsz - 3600) * 1 by omega,
      Nat.add_mul_mod_self_left, Nat.mod_eq_of_lt (by omega)]
    omega

/-- One process, a file of 2 GiB. -/
example : 1 * 1073741824 + 3600 < 2 ^ 31 ∧ 3600 + (2 ^ 31 - 3600) * 2 + 2 ^ 31 < 2 ^ 64 := by decide

end Verif.Util
