import Verif.Flow.Rounds
import Mathlib.Data.List.Perm.Basic
import Mathlib.Data.List.Nodup

/-!
C69 (blocks of a set: same collective calls on all processes, every trace read and written once).
-/

namespace Verif.Flow

open Verif.Layout

/-- What other processes see of a call: reading or writing, and the part of the record. -/
def Step.shape : Step → Bool × Part
  | .read p _ => (false, p)
  | .write p _ => (true, p)

/-- Traces read by a call. -/
def Step.reads : Step → List Nat
  | .read _ l => l
  | .write _ _ => []

/-- Traces written by a call, with their output positions. -/
def Step.moves : Step → List (Nat × Nat)
  | .read _ _ => []
  | .write _ m => m

/-- Number of traces of a call. -/
def Step.size : Step → Nat
  | .read _ l => l.length
  | .write _ m => m.length

/-- Any result of sorting indices by value (`std::sort` with equal values in any order). -/
def IsSortIndex (idx : List Nat → List Nat) : Prop :=
  ∀ l, (idx l).Perm (List.range l.length) ∧ ((idx l).map fun j => l.getD j 0).Pairwise (· ≤ ·)

/-- Rounding up of a quotient. -/
def ceil (a m : Nat) : Nat := (a + m - 1) / m

theorem ceil_eq (a m : Nat) (hm : 0 < m) : a / m + (if 0 < a % m then 1 else 0) = ceil a m := by
  unfold ceil
  have h := Nat.div_add_mod a m
  have hl := Nat.mod_lt a hm
  split
  · rename_i hp
    have : a + m - 1 = m * (a / m + 1) + (a % m - 1) := by rw [Nat.mul_add]; omega
    rw [this, Nat.mul_add_div hm, Nat.div_eq_of_lt (show a % m - 1 < m by omega)]
  · rename_i hp
    have : a + m - 1 = m * (a / m) + (m - 1) := by omega
    rw [this, Nat.mul_add_div hm, Nat.div_eq_of_lt (show m - 1 < m by omega)]

theorem ceil_mono (m : Nat) {a b : Nat} (h : a ≤ b) : ceil a m ≤ ceil b m :=
  Nat.div_le_div_right (by omega)

theorem ceil_le (a m : Nat) (hm : 0 < m) : ceil a m ≤ a := by
  unfold ceil
  rcases Nat.eq_zero_or_pos a with rfl | ha
  · rw [Nat.div_eq_of_lt (by omega)]
  · rw [Nat.div_le_iff_le_mul hm]
    obtain ⟨k, rfl⟩ : ∃ k, m = k + 1 := ⟨m - 1, by omega⟩
    obtain ⟨c, rfl⟩ : ∃ c, a = c + 1 := ⟨a - 1, by omega⟩
    rw [Nat.add_mul, Nat.mul_add, Nat.mul_add]
    omega

theorem ceil_pos (a m : Nat) (hm : 0 < m) (ha : 0 < a) : ceil a m = ceil (a - m) m + 1 := by
  unfold ceil
  rcases Nat.lt_or_ge a m with h | h
  · rw [show a - m = 0 by omega, Nat.div_eq_of_lt (show 0 + m - 1 < m by omega)]
    rw [show a + m - 1 = m * 1 + (a - 1) by omega, Nat.mul_add_div hm, Nat.div_eq_of_lt (by omega)]
  · rw [show a + m - 1 = (a - m + m - 1) + m by omega, Nat.add_div_right _ hm]

variable (idx : List Nat → List Nat)

theorem block_moves (hidx : IsSortIndex idx) (is os : List Nat) (h : is.length = os.length) :
    ((idx os).map fun j => (is.getD j 0, os.getD j 0)).Perm (is.zip os) := by
  refine ((hidx os).1.map _).trans ?_
  have : (List.range os.length).map (fun j => (is.getD j 0, os.getD j 0)) = is.zip os := by
    apply List.ext_getElem
    · simp [h]
    · intro n h1 h2
      have hn : n < os.length := by simpa using h1
      simp [hn, h ▸ hn]
  rw [this]

/-- The calls from trace `i` on. -/
theorem blocksFrom_spec (hidx : IsSortIndex idx) (max : Nat) (hm : 0 < max) (ilst olst : List Nat)
    (h : ilst.length = olst.length) (n : Nat) : ∀ i, ilst.length - i ≤ n →
      let b := blocksFrom idx max ilst olst i
      b.map Step.shape = (List.replicate (ceil (ilst.length - i) max) [(false, Part.whole), (true, Part.whole)]).flatten ∧
      (b.flatMap Step.reads = ilst.drop i) ∧ (b.flatMap Step.moves).Perm ((ilst.zip olst).drop i) ∧
      ∀ s ∈ b, s.size ≤ max ∧ (s.moves.map Prod.snd).Pairwise (· ≤ ·) := by
  induction n with
  | zero =>
    intro i hi
    have hc : ceil (ilst.length - i) max = 0 := by
      rw [show ilst.length - i = 0 by omega]
      have := ceil_le 0 max hm
      omega
    unfold blocksFrom
    rw [dif_neg (by omega)]
    simp only [hc, List.replicate_zero, List.flatten_nil, List.map_nil, List.flatMap_nil, List.not_mem_nil,
      false_implies, implies_true, and_true, true_and]
    refine ⟨(List.drop_eq_nil_of_le (by omega)).symm, ?_⟩
    rw [List.drop_eq_nil_of_le (by simp; omega)]
  | succ n ih =>
    intro i hi
    by_cases hlt : i < ilst.length
    · unfold blocksFrom
      rw [dif_pos ⟨hlt, hm⟩]
      obtain ⟨i1, i2, i3, i4⟩ := ih (i + max) (by omega)
      have hmin : (if i + max < ilst.length then max else ilst.length - i) = min max (ilst.length - i) := by
        split <;> omega
      rw [hmin]
      generalize hk : min max (ilst.length - i) = k
      have hdrop : ∀ {α : Type} (l : List α), l.length = ilst.length → l.drop (i + max) = (l.drop i).drop k := by
        intro α l hl
        rw [List.drop_drop]
        rcases Nat.lt_or_ge max (ilst.length - i) with hc | hc
        · rw [show k = max by omega]
        · rw [List.drop_eq_nil_of_le (by omega), List.drop_eq_nil_of_le (by omega)]
      have htk : ∀ {α : Type} (l : List α), l.length = ilst.length → ((l.drop i).take k).length = k := by
        intro α l hl
        rw [List.length_take, List.length_drop]
        omega
      have hzl : (ilst.zip olst).length = ilst.length := by simp [h]
      refine ⟨?_, ?_, ?_, ?_⟩
      · rw [List.map_append, i1, ceil_pos (ilst.length - i) max hm (by omega),
          show ilst.length - i - max = ilst.length - (i + max) by omega, List.replicate_succ, List.flatten_cons]
        rfl
      · rw [List.flatMap_append, i2, hdrop ilst rfl]
        simp only [blockSteps, List.flatMap_cons, List.flatMap_nil, Step.reads, List.append_nil]
        exact List.take_append_drop _ _
      · rw [List.flatMap_append]
        have hb : ((blockSteps idx ilst olst i k).flatMap Step.moves).Perm (((ilst.zip olst).drop i).take k) := by
          simp only [blockSteps, List.flatMap_cons, List.flatMap_nil, Step.moves, List.append_nil, List.nil_append]
          refine (block_moves idx hidx _ _ (by rw [htk ilst rfl, htk olst h.symm])).trans ?_
          simp only [List.zip, List.drop_zipWith, List.take_zipWith]; exact List.Perm.refl _
        refine (hb.append i3).trans ?_
        rw [hdrop (ilst.zip olst) hzl, List.take_append_drop]
      · intro s hs
        rcases List.mem_append.1 hs with hs | hs
        · simp only [blockSteps, List.mem_cons, List.not_mem_nil, or_false] at hs
          rcases hs with rfl | rfl
          · refine ⟨?_, by simp [Step.moves]⟩
            simp only [Step.size]
            rw [htk ilst rfl]
            omega
          · refine ⟨?_, ?_⟩
            · simp only [Step.size, List.length_map]
              rw [(hidx _).1.length_eq, List.length_range, htk olst h.symm]
              omega
            · simp only [Step.moves, List.map_map]
              exact (hidx _).2
        · exact i4 s hs
    · unfold blocksFrom
      rw [dif_neg (by omega)]
      have hc : ceil (ilst.length - i) max = 0 := by
        rw [show ilst.length - i = 0 by omega]
        have := ceil_le 0 max hm
        omega
      simp only [hc, List.replicate_zero, List.flatten_nil, List.map_nil, List.flatMap_nil, List.not_mem_nil,
        false_implies, implies_true, and_true, true_and]
      refine ⟨(List.drop_eq_nil_of_le (by omega)).symm, ?_⟩
      rw [List.drop_eq_nil_of_le (by simp; omega)]

/-- C69: any number of processes with any shares of a file, any block size. Let `biggest` be the size of the largest
share. All processes make the same sequence of collective calls: reads and writes of whole records in turn. The reads of
a process are the traces of its list, once each and in order; its writes put each of these traces at its output position,
once each; within a call positions ascend; and no call has more traces than a block. -/
theorem C69_calls (hidx : IsSortIndex idx) (max : Nat) (hm : 0 < max) (procs : List (List Nat × List Nat))
    (h : ∀ p ∈ procs, p.1.length = p.2.length) (biggest : Nat) (hb : biggest < 2 ^ 63)
    (hmax : ∀ p ∈ procs, p.1.length ≤ biggest) :
    ∃ shape : List (Bool × Part), ∀ p ∈ procs, ∃ steps, fileSteps idx max biggest p.1 p.2 = .ok steps ∧
      steps.map Step.shape = shape ∧ steps.flatMap Step.reads = p.1 ∧
      (steps.flatMap Step.moves).Perm (p.1.zip p.2) ∧
      ∀ s ∈ steps, s.size ≤ max ∧ (s.moves.map Prod.snd).Pairwise (· ≤ ·) := by
  refine ⟨(List.replicate (ceil biggest max) [(false, Part.whole), (true, Part.whole)]).flatten, ?_⟩
  intro p hp
  obtain ⟨i1, i2, i3, i4⟩ := blocksFrom_spec idx hidx max hm p.1 p.2 (h p hp) p.1.length 0 (by omega)
  have hle := hmax p hp
  have c1 := ceil_le biggest max hm
  have c2 := ceil_mono max hle
  unfold fileSteps
  rw [if_neg (by omega)]
  simp only
  rw [add64_eq (by rw [ceil_eq biggest max hm]; omega), add64_eq (by rw [ceil_eq p.1.length max hm]; omega),
    ceil_eq biggest max hm, ceil_eq p.1.length max hm,
    sub64_eq (a := ceil biggest max) (b := ceil p.1.length max) (by omega) (by omega)]
  refine ⟨_, rfl, ?_, ?_, ?_, ?_⟩
  · rw [List.map_append, i1, List.map_flatten, List.map_replicate, ← List.flatten_append, Nat.sub_zero]
    change (List.replicate _ _ ++ List.replicate _ [(false, Part.whole), (true, Part.whole)]).flatten = _
    rw [List.replicate_append_replicate, show ceil p.1.length max + (ceil biggest max - ceil p.1.length max)
      = ceil biggest max by omega]
  · rw [List.flatMap_append, i2]
    have : ∀ n, ((List.replicate n [Step.read (ioPart .null .null) [], .write (ioPart .null .null) []]).flatten).flatMap
        Step.reads = [] := by
      intro n
      induction n with
      | zero => rfl
      | succ n ih => rw [List.replicate_succ, List.flatten_cons, List.flatMap_append, ih]; rfl
    rw [this]
    simp
  · rw [List.flatMap_append]
    have : ∀ n, ((List.replicate n [Step.read (ioPart .null .null) [], .write (ioPart .null .null) []]).flatten).flatMap
        Step.moves = [] := by
      intro n
      induction n with
      | zero => rfl
      | succ n ih => rw [List.replicate_succ, List.flatten_cons, List.flatMap_append, ih]; rfl
    rw [this, List.append_nil]
    exact i3
  · intro s hs
    rcases List.mem_append.1 hs with hs | hs
    · exact i4 s hs
    · obtain ⟨l, hl, hs⟩ := List.mem_flatten.1 hs
      have hl := List.eq_of_mem_replicate hl
      subst hl
      simp only [List.mem_cons, List.not_mem_nil, or_false] at hs
      rcases hs with rfl | rfl <;> simp [Step.size, Step.moves]

/-- Insertion sort of the indices. -/
def insIndex (l : List Nat) : List Nat := (List.range l.length).insertionSort fun a b => l.getD a 0 ≤ l.getD b 0

/-- There is such a sort. -/
theorem insIndex_sorts : IsSortIndex insIndex := by
  intro l
  have : Std.Total (fun a b : Nat => l.getD a 0 ≤ l.getD b 0) := ⟨fun a b => Nat.le_total _ _⟩
  have : IsTrans Nat (fun a b : Nat => l.getD a 0 ≤ l.getD b 0) := ⟨fun a b c => Nat.le_trans⟩
  exact ⟨List.perm_insertionSort _ _,
    List.pairwise_map.2 (List.pairwise_insertionSort (fun a b : Nat => l.getD a 0 ≤ l.getD b 0) _)⟩

/-- Three processes, blocks of two traces; the third has nothing to do in the second round. -/
example : fileSteps insIndex 2 3 [4, 5, 6] [9, 2, 7] = .ok
    [.read .whole [4, 5], .write .whole [(5, 2), (4, 9)], .read .whole [6], .write .whole [(6, 7)]] ∧
    fileSteps insIndex 2 3 [7] [0] = .ok
    [.read .whole [7], .write .whole [(7, 0)], .read .whole [], .write .whole []] := by
  constructor <;> simp [fileSteps, blocksFrom, blockSteps, insIndex, ioPart, sub64, add64, List.range_succ]

/-- C69, memory: if one trace with its parameters fits into a gibibyte (always for SEG-Y traces and rules of up to 500
megabytes), a block has at least one trace and the buffers of a block fit. The division is by no zero. -/
theorem C69_memory (ns pm : Nat) (h : 40 + (240 + 4 * ns) + 2 * pm + 2 * (4 * ns) ≤ 2 ^ 30) :
    ∃ max, blockMax ns pm = .ok max ∧ 0 < max ∧ max * (40 + (240 + 4 * ns) + 2 * pm + 2 * (4 * ns)) ≤ 2 ^ 30 := by
  have h1 : getDFSz ns = 4 * ns := by unfold getDFSz; rw [mul64_eq (by omega)]; omega
  have h2 : getDOSz ns = 240 + 4 * ns := by unfold getDOSz getMDSz; rw [h1, add64_eq (by omega)]
  unfold blockMax
  rw [h1, h2]
  rw [mul64_eq (a := 2) (b := pm) (by omega), mul64_eq (a := 2) (b := 4 * ns) (by omega),
    add64_eq (a := 40) (by omega), add64_eq (a := 40 + (240 + 4 * ns)) (by omega),
    add64_eq (a := 40 + (240 + 4 * ns) + 2 * pm) (by omega)]
  simp only
  rw [if_neg (by omega)]
  refine ⟨_, rfl, Nat.div_pos h (by omega), ?_⟩
  exact Nat.div_mul_le_self _ _

/-- The longest traces of a SEG-Y file, and the standard rule. -/
example : 40 + (240 + 4 * 65535) + 2 * 152 + 2 * (4 * 65535) ≤ 2 ^ 30 := by decide

end Verif.Flow
