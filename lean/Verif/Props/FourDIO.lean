import Verif.Util.FourDIO
import Verif.Props.FileMake
import Verif.Decomp.Lemmas

/-!
# C63, C64: input and output of 4D binning
-/

namespace Verif.Util
open Verif.Decomp

/-! ### C63: collective calls -/

theorem coordMem_eq {b : Nat} (h : b ≤ 2 ^ 26) : coordMem b = 2 ^ 31 - 32 * b := by
  unfold coordMem
  rw [mul64_eq (by omega), sub64_eq (by omega) (by omega)]
  omega

theorem calls_eq {b l m : Nat} (hm : 1 ≤ m) (hle : l ≤ b) (h64 : b + m < 2 ^ 64) :
    extraCalls b l m = .ok ((b + (m - 1)) / m - (l + (m - 1)) / m) := by
  have hmono : (l + (m - 1)) / m ≤ (b + (m - 1)) / m := Nat.div_le_div_right (by omega)
  have hbig : (b + (m - 1)) / m < 2 ^ 64 := lt_of_le_of_lt (Nat.div_le_self _ _) (by omega)
  unfold extraCalls
  rw [if_neg (by omega), ← ceil_eq _ _ hm, ← ceil_eq _ _ hm, sub64_eq hmono hbig]

theorem coordCalls_eq (ixline : Bool) {lnt biggest : Nat} (hle : lnt ≤ biggest) (h1 : 1 ≤ firstMax biggest)
    (h2 : 1 ≤ secondMax ixline biggest) (h64 : biggest + firstMax biggest < 2 ^ 64) :
    coordCalls ixline lnt biggest = .ok ((biggest + (firstMax biggest - 1)) / firstMax biggest,
      (lnt + (secondMax ixline biggest - 1)) / secondMax ixline biggest +
        ((biggest + (firstMax biggest - 1)) / firstMax biggest - (lnt + (firstMax biggest - 1)) / firstMax biggest)) := by
  have hmono : (lnt + (firstMax biggest - 1)) / firstMax biggest ≤ (biggest + (firstMax biggest - 1)) / firstMax biggest :=
    Nat.div_le_div_right (by omega)
  have p1 := (pieces_spec lnt (firstMax biggest) h1 lnt 0 (by omega)).1
  have p2 := (pieces_spec lnt (secondMax ixline biggest) h2 lnt 0 (by omega)).1
  rw [Nat.sub_zero] at p1 p2
  unfold coordCalls
  simp only
  rw [calls_eq h1 hle h64, Res.ok_bind, if_neg (by omega), p1, p2, Nat.add_sub_cancel' hmono]

theorem ceil_one {x m : Nat} (h1 : 1 ≤ x) (h2 : x ≤ m) : (x + (m - 1)) / m = 1 := by
  rw [show x + (m - 1) = (x - 1) + m by omega, Nat.add_div_right _ (by omega), Nat.div_eq_of_lt (by omega)]

/-- C63 (partial): up to 6100805 traces on a process, every process makes one collective call in both phases, whatever its own
share, even none.  Missing: larger shares, for which see `C63_second_refuted`. -/
theorem C63_calls_partial (ixline : Bool) (lnt biggest : Nat) (hle : lnt ≤ biggest) (h1 : 1 ≤ biggest)
    (h2 : biggest ≤ 6100805) : coordCalls ixline lnt biggest = .ok (1, 1) := by
  have hm := coordMem_eq (show biggest ≤ 2 ^ 26 by omega)
  have hf : biggest ≤ firstMax biggest := by unfold firstMax; rw [hm]; omega
  have hf' : firstMax biggest ≤ 2 ^ 31 := by unfold firstMax; rw [hm]; omega
  have hs : biggest ≤ secondMax ixline biggest := by
    unfold secondMax; rw [hm]
    cases ixline
    · simp only [Bool.false_eq_true, if_false]; omega
    · simp only [if_true]; omega
  rw [coordCalls_eq ixline hle (by omega) (by omega) (by omega), ceil_one h1 hf]
  rcases Nat.eq_zero_or_pos lnt with h0 | h0
  · subst h0
    rw [Nat.div_eq_of_lt (by omega), Nat.div_eq_of_lt (by omega)]
  · rw [ceil_one h0 (by omega), ceil_one h0 (by omega)]

/-- C63 (partial): in the first phase all processes make the same number of calls, whatever the shares. -/
theorem C63_first_partial (ixline : Bool) (biggest : Nat) (hb : biggest ≤ 2 ^ 26 - 10) :
    ∃ n, ∀ lnt ≤ biggest, ∃ m, coordCalls ixline lnt biggest = .ok (n, m) := by
  have hm := coordMem_eq (show biggest ≤ 2 ^ 26 by omega)
  have hf : 1 ≤ firstMax biggest := by unfold firstMax; rw [hm]; omega
  have hf' : firstMax biggest ≤ 2 ^ 31 := by unfold firstMax; rw [hm]; omega
  have hs : 1 ≤ secondMax ixline biggest := by
    unfold secondMax; rw [hm]
    cases ixline
    · simp only [Bool.false_eq_true, if_false]; omega
    · simp only [if_true]; omega
  exact ⟨_, fun lnt hl => ⟨_, coordCalls_eq ixline hl hf hs (by omega)⟩⟩

/-- C63 is refuted for the second phase: of two processes that share 12782641 traces one makes two calls and the other one
makes one, because the number of balancing calls was computed for the limit of the first phase. -/
theorem C63_second_refuted :
    blockDecomposition 12782641 2 0 = .ok ⟨0, 6391321⟩ ∧ blockDecomposition 12782641 2 1 = .ok ⟨6391321, 6391320⟩ ∧
      coordCalls false 6391321 6391321 = .ok (1, 2) ∧ coordCalls false 6391320 6391321 = .ok (1, 1) := by
  have e1 : firstMax 6391321 = 7359702 := by decide +kernel
  have e2 : secondMax false 6391321 = 6391320 := by decide +kernel
  refine ⟨by decide +kernel, by decide +kernel, ?_, ?_⟩
  · rw [coordCalls_eq false (Nat.le_refl _) (by omega) (by omega) (by omega), e1, e2]
  · rw [coordCalls_eq false (by omega) (by omega) (by omega) (by omega), e1, e2]

/-! ### C64: alignment of the outputs -/

theorem outShares_fst (rank : Nat) : ∀ (ns : List Nat) (i o s b : Nat), s + ns.sum < 2 ^ 64 →
    (outShares rank i ns (o, s, b)).1 = if i ≤ rank ∧ rank < i + ns.length then s + (ns.take (rank - i)).sum else o := by
  intro ns
  induction ns with
  | nil =>
    intro i o s b _
    rw [if_neg (by simp only [List.length_nil]; omega)]
    rfl
  | cons n ns ih =>
    intro i o s b h
    rw [List.sum_cons] at h
    unfold outShares
    rw [add64_eq (by omega), ih _ _ _ _ (by omega), List.length_cons]
    by_cases hi : i = rank
    · subst hi
      rw [if_neg (by omega), if_pos rfl, if_pos (by omega), Nat.sub_self]
      rfl
    · rw [if_neg hi]
      by_cases hr : i + 1 ≤ rank ∧ rank < i + 1 + ns.length
      · rw [if_pos hr, if_pos (by omega)]
        obtain ⟨k, hk⟩ : ∃ k, rank - i = k + 1 := ⟨rank - i - 1, by omega⟩
        rw [hk, List.take_succ_cons, List.sum_cons, show rank - (i + 1) = k by omega]
        omega
      · rw [if_neg hr, if_neg (by omega)]

theorem length_flatten_take (lists : List (List Nat)) (r : Nat) :
    ((lists.map List.length).take r).sum = (lists.take r).flatten.length := by
  rw [List.length_flatten, List.map_take]

theorem outWrites_eq (lists : List (List Nat)) (rank limit : Nat) (hl : 1 ≤ limit) (hr : rank < lists.length)
    (h64 : lists.flatten.length < 2 ^ 64) :
    outWrites lists rank limit =
      (List.range lists[rank].length).map fun k => ((lists.take rank).flatten.length + k, lists[rank].getD k 0) := by
  have hlist : lists.getD rank [] = lists[rank] := by
    rw [List.getD_eq_getElem?_getD, List.getElem?_eq_getElem hr]; rfl
  have hsum : (lists.map List.length).sum = lists.flatten.length := by rw [List.length_flatten]
  have hoff : (outShares rank 0 (lists.map List.length) (0, 0, 0)).1 = (lists.take rank).flatten.length := by
    rw [outShares_fst _ _ _ _ _ _ (by omega), if_pos (by rw [List.length_map]; omega), Nat.sub_zero,
      length_flatten_take, Nat.zero_add]
  have hbound : (lists.take rank).flatten.length + lists[rank].length ≤ lists.flatten.length := by
    have h1 : lists = lists.take rank ++ lists[rank] :: lists.drop (rank + 1) := by
      rw [← List.drop_eq_getElem_cons hr, List.take_append_drop]
    calc (lists.take rank).flatten.length + lists[rank].length
        ≤ (lists.take rank ++ lists[rank] :: lists.drop (rank + 1)).flatten.length := by
          rw [List.flatten_append, List.flatten_cons, List.length_append, List.length_append]; omega
      _ = lists.flatten.length := by rw [← h1]
  obtain ⟨_, h2, h3⟩ := pieces_spec lists[rank].length limit hl lists[rank].length 0 (by omega)
  rw [Nat.sub_zero, ← List.range_eq_range'] at h2
  unfold outWrites
  simp only [hlist, hoff]
  rw [← h2, List.map_flatMap]
  apply List.flatMap_congr
  intro p hp
  have hb := h3 p hp
  rw [List.range'_eq_map_range, List.map_map]
  apply List.map_congr_left
  intro j hj
  rw [List.mem_range] at hj
  rw [add64_eq (a := (lists.take rank).flatten.length) (by omega), add64_eq (by omega)]
  simp only [Function.comp, Nat.add_assoc]

/-- C64: all processes together write the traces of their lists one after the other, in the order of the processes, each
position once. -/
theorem C64_output (lists : List (List Nat)) (limit : Nat) (hl : 1 ≤ limit) (h64 : lists.flatten.length < 2 ^ 64) :
    (List.range lists.length).flatMap (fun r => outWrites lists r limit) =
      (List.range lists.flatten.length).map fun k => (k, lists.flatten.getD k 0) := by
  have key : ∀ m, m ≤ lists.length → (List.range m).flatMap (fun r => outWrites lists r limit) =
      (List.range (lists.take m).flatten.length).map fun k => (k, lists.flatten.getD k 0) := by
    intro m
    induction m with
    | zero => intro _; rfl
    | succ m ih =>
      intro hm
      rw [List.range_succ, List.flatMap_append, ih (by omega), List.flatMap_cons, List.flatMap_nil, List.append_nil,
        outWrites_eq lists m limit hl (by omega) h64]
      have htake : lists.take (m + 1) = lists.take m ++ [lists[m]] := by
        rw [List.take_add_one, List.getElem?_eq_getElem (show m < lists.length by omega)]; rfl
      rw [htake, List.flatten_append, List.flatten_cons, List.flatten_nil, List.append_nil, List.length_append,
        List.range_add, List.map_append, List.map_map]
      congr 1
      apply List.map_congr_left
      intro k hk
      rw [List.mem_range] at hk
      refine Prod.ext rfl ?_
      have h1 : lists.flatten = (lists.take m).flatten ++ (lists[m] ++ (lists.drop (m + 1)).flatten) := by
        rw [← List.flatten_cons, ← List.drop_eq_getElem_cons (show m < lists.length by omega), ← List.flatten_append,
          List.take_append_drop]
      simp only [Function.comp, List.getD_eq_getElem?_getD]
      rw [h1, List.getElem?_append_right (by omega), Nat.add_sub_cancel_left, List.getElem?_append_left hk]
  have := key lists.length (Nat.le_refl _)
  rw [List.take_length] at this
  exact this

/-- C64: position `k` of both outputs holds the two traces of one matched pair, and every pair gets a position, whatever the
limits of the two files. -/
theorem C64_pairs {K : Type} (ms : List (List (Nat × Nat × K))) (limit1 limit2 : Nat) (h1 : 1 ≤ limit1) (h2 : 1 ≤ limit2)
    (h64 : ms.flatten.length < 2 ^ 64) :
    (List.range ms.length).flatMap (fun r => outWrites (ms.map fun l => l.map fun p => p.1) r limit1) =
        (List.range ms.flatten.length).map (fun k => (k, (ms.flatten.map fun p => p.1).getD k 0)) ∧
      (List.range ms.length).flatMap (fun r => outWrites (ms.map fun l => l.map fun p => p.2.1) r limit2) =
        (List.range ms.flatten.length).map (fun k => (k, (ms.flatten.map fun p => p.2.1).getD k 0)) := by
  have f : ∀ q : Nat × Nat × K → Nat, (ms.map fun l => l.map q).flatten = ms.flatten.map q := by
    intro q; rw [List.map_flatten]
  constructor
  · have := C64_output (ms.map fun l => l.map fun p => p.1) limit1 h1 (by rw [f, List.length_map]; exact h64)
    rw [f, List.length_map, List.length_map] at this
    exact this
  · have := C64_output (ms.map fun l => l.map fun p => p.2.1) limit2 h2 (by rw [f, List.length_map]; exact h64)
    rw [f, List.length_map, List.length_map] at this
    exact this

example : outWrites [[7, 9], [], [4, 3, 8]] 2 2 = [(2, 4), (3, 3), (4, 8)] ∧ outWrites [[7, 9], [], [4, 3, 8]] 0 2 =
    [(0, 7), (1, 9)] := by decide +kernel

end Verif.Util
