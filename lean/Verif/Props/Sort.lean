import Verif.Sort.Lemmas
import Verif.Props.Compare

/-!
C27 (the parallel sort sorts), C28 (it ends), C29 (lists in file order), C30 (`checkOrder`), C55 (records keep
their copied headers).
-/

namespace Verif.Sort

variable {α β : Type}

/-! The shares of the processes as lists. -/

theorem flat_share (parts : List (List α)) : flat parts.length (share parts) = parts.flatten := by
  unfold flat
  congr 1
  apply List.ext_getElem
  · simp
  · intro i h1 h2
    simp [share]
    rw [List.getElem?_eq_getElem h2]
    rfl

theorem minLen_le {parts : List (List α)} : ∀ p ∈ parts, minLen parts ≤ p.length := by
  induction parts with
  | nil => simp
  | cons a l ih =>
    intro p hp
    cases l with
    | nil =>
      rw [List.mem_singleton.1 hp]
      exact Nat.le_refl _
    | cons b l' =>
      show min a.length (minLen (b :: l')) ≤ p.length
      rcases List.mem_cons.1 hp with h | h
      · rw [h]; exact Nat.min_le_left _ _
      · exact Nat.le_trans (Nat.min_le_right _ _) (ih p h)

theorem le_minLen {parts : List (List α)} {n : Nat} (hne : parts ≠ []) (h : ∀ p ∈ parts, n ≤ p.length) :
    n ≤ minLen parts := by
  induction parts with
  | nil => exact absurd rfl hne
  | cons a l ih =>
    cases l with
    | nil => exact h a (by simp)
    | cons b l' =>
      show n ≤ min a.length (minLen (b :: l'))
      exact Nat.le_min.2 ⟨h a (by simp), ih (by simp) fun p hp => h p (by simp [hp])⟩

theorem share_eq {parts : List (List α)} {r : Nat} (h : r < parts.length) : share parts r = parts[r] := by
  unfold share
  simp [h]

theorem share_mem {parts : List (List α)} {r : Nat} (h : r < parts.length) : share parts r ∈ parts := by
  rw [share_eq h]
  exact List.getElem_mem h

section

variable {c : Cfg α β} {lt : α → α → Bool}

/-- The buffers that the loop starts from. -/
def start (c : Cfg α β) (parts : List (List α)) (r : Nat) : List α :=
  c.srt (share parts r) ++ List.replicate (edge2 parts.length (minLen parts / 4) r) c.dflt

theorem start_sized (hs : IsSort lt c.srt) (parts : List (List α)) :
    Sized parts.length (minLen parts / 4) (fun r => (share parts r).length) (start c parts) := by
  intro r _
  simp [start, (hs _).1.length_eq]

theorem start_body (hs : IsSort lt c.srt) (parts : List (List α)) (r : Nat) :
    body (fun r => (share parts r).length) (start c parts) r = c.srt (share parts r) := by
  unfold body start
  have := (hs (share parts r)).1.length_eq
  simp only
  rw [List.take_append_of_le_length (by omega), List.take_of_length_le (by omega)]

theorem start_perm (hs : IsSort lt c.srt) (parts : List (List α)) :
    (flat parts.length (body (fun r => (share parts r).length) (start c parts))).Perm parts.flatten := by
  rw [flat_congr (fun r _ => start_body hs parts r)]
  refine (flat_srt_perm hs _ _).trans ?_
  rw [flat_share]

theorem region_le (parts : List (List α)) : ∀ r, r < parts.length → minLen parts / 4 ≤ (share parts r).length := by
  intro r hr
  have := minLen_le _ (share_mem hr)
  omega

theorem region_le2 (parts : List (List α)) : ∀ r, r < parts.length → 2 * (minLen parts / 4) ≤ (share parts r).length := by
  intro r hr
  have := minLen_le _ (share_mem hr)
  omega

theorem psort_many [DecidableEq β] {parts : List (List α)} (h : parts.length > 1) (fuel : Nat) :
    psort c fuel parts = (loop c parts.length (minLen parts / 4) (fun r => (share parts r).length) fuel (start c parts)).map
      fun t => (List.range parts.length).map (body (fun r => (share parts r).length) t) := by
  unfold psort
  simp only [h, if_true]
  rfl

theorem psort_one [DecidableEq β] {parts : List (List α)} (h : ¬ parts.length > 1) (fuel : Nat) :
    psort c fuel parts = some (parts.map c.srt) := by
  unfold psort
  simp only [h, if_false]

end

/-- C28. For every number of processes, every distribution of the elements and every comparison that orders the
elements totally, the exchange ends after finitely many rounds, with a result that does not depend on how many
more rounds would have been allowed. -/
theorem C28_ends [DecidableEq β] (c : Cfg α β) (lt : α → α → Bool) (hs : IsSort lt c.srt) (hm : ∀ x, c.msg x = x)
    (parts : List (List α)) (ht : TotalOn lt parts.flatten) :
    ∃ n out, ∀ fuel, n ≤ fuel → psort c fuel parts = some out := by
  by_cases hP : parts.length > 1
  · have hp := start_perm hs parts
    obtain ⟨t', h'⟩ := loop_ends (c := c) hs hm (region_le parts) (by omega)
      (inv lt (flat parts.length (body (fun r => (share parts r).length) (start c parts))) + 1) (start c parts)
      (start_sized hs parts) (ht.mono fun x hx => hp.mem_iff.1 hx) (Nat.lt_succ_self _)
    refine ⟨inv lt (flat parts.length (body (fun r => (share parts r).length) (start c parts))) + 1,
      (List.range parts.length).map (body (fun r => (share parts r).length) t'), fun fuel hf => ?_⟩
    rw [psort_many hP]
    obtain ⟨k, rfl⟩ := Nat.exists_eq_add_of_le hf
    rw [loop_mono _ _ _ h' k]
    rfl
  · exact ⟨0, _, fun fuel _ => psort_one hP fuel⟩

/-- C27, kept part. With at least four elements on every process (or one process) the result of the parallel sort
is ordered, is a rearrangement of the input, and every process keeps its number of elements. What is missing:
distributions with fewer than four elements on some process, where the claim is false
(`C27_small_refuted`, `C27_isolated`). The last two parts hold for these too. -/
theorem C27_sorted_partial [DecidableEq β] (c : Cfg α β) (lt : α → α → Bool) (hs : IsSort lt c.srt)
    (hm : ∀ x, c.msg x = x) (parts : List (List α)) (ht : TotalOn lt parts.flatten)
    (hk : ∀ a ∈ parts.flatten, ∀ b ∈ parts.flatten, c.key a = c.key b → a = b)
    (fuel : Nat) (out : List (List α)) (h : psort c fuel parts = some out) :
    ((parts.length ≤ 1 ∨ ∀ p ∈ parts, 4 ≤ p.length) → out.flatten.Pairwise fun a b => lt b a = false) ∧
    out.flatten.Perm parts.flatten ∧ out.map List.length = parts.map List.length := by
  by_cases hP : parts.length > 1
  · rw [psort_many hP] at h
    simp only [Option.map_eq_some_iff] at h
    obtain ⟨t', hl, rfl⟩ := h
    obtain ⟨u, su, pu, rfl, hc⟩ := loop_spec hs hm (region_le parts) (by omega) fuel _ _ (start_sized hs parts) hl
    have hpu := pu.trans (start_perm hs parts)
    have hpr := (round_perm hs hm su (region_le parts) (by omega)).trans hpu
    refine ⟨?_, hpr, ?_⟩
    · intro h4
      have h4' : ∀ p ∈ parts, 4 ≤ p.length := by
        rcases h4 with h4 | h4
        · omega
        · exact h4
      have hmin := le_minLen (by intro he; simp [he] at hP) h4'
      exact fix_sorted hs hm (region_le2 parts) (by omega) (by omega) su
        (ht.mono fun x hx => hpu.mem_iff.1 hx)
        (fun a ha b hb => hk a (hpu.mem_iff.1 ha) b (hpu.mem_iff.1 hb)) hc
    · apply List.ext_getElem
      · simp
      · intro i h1 h2
        have hi : i < parts.length := by simpa using h2
        simp only [List.getElem_map, List.getElem_range]
        rw [body_length (round_sized hs hm su (region_le parts)) hi]
        rw [share_eq hi]
  · rw [psort_one hP, Option.some.injEq] at h
    subst h
    refine ⟨?_, flatten_perm (fun l => (hs l).1) parts, ?_⟩
    · intro _
      match parts, hP with
      | [], _ => simp
      | [p], _ => simpa using (hs p).2
      | _ :: _ :: _, hP => simp at hP
    · rw [List.map_map]
      apply List.map_congr_left
      intro p _
      exact (hs p).1.length_eq

/-- `std::sort` on numbers, for the examples. -/
def natCfg : Cfg Nat Nat := { srt := List.insertionSort (· ≤ ·), msg := id, key := id, dflt := 0 }

theorem natCfg_sorts : IsSort (fun a b => decide (a < b)) natCfg.srt := by
  intro l
  refine ⟨List.perm_insertionSort _ l, ?_⟩
  have := List.pairwise_insertionSort (· ≤ ·) l
  exact this.imp (by intro a b h; simp; omega)

theorem nat_total (l : List Nat) : TotalOn (fun a b => decide (a < b)) l :=
  ⟨by simp, fun a _ b _ c _ => by simp; omega, fun a _ b _ => by simp⟩

/-- The hypotheses of `C27_sorted_partial` and `C28_ends` are met by three processes with descending numbers. -/
example : IsSort (fun a b => decide (a < b)) natCfg.srt ∧ (∀ x, natCfg.msg x = x) ∧
    TotalOn (fun a b => decide (a < b)) [[9, 8, 7, 6], [5, 4, 3, 2, 2], [1, 1, 0, 0]].flatten ∧
    (∀ p ∈ [[9, 8, 7, 6], [5, 4, 3, 2, 2], [1, 1, 0, 0]], 4 ≤ p.length) :=
  ⟨natCfg_sorts, fun _ => rfl, nat_total _, by decide⟩

/-- C27 fails with fewer than four elements on a process: the exchange region is a quarter of the smallest share,
so it is empty, and two processes with one number each keep them in the wrong order. -/
theorem C27_small_refuted : ¬ ∀ (parts : List (List Nat)) (fuel : Nat) (out : List (List Nat)),
    psort natCfg fuel parts = some out → out.flatten.Pairwise fun a b => ¬ b < a := by
  intro h
  have := h [[1], [0]] 1 [[1], [0]] (by decide +kernel)
  simp at this

theorem sum_le_zero {n : Nat} {f : Nat → Nat} (h : ∀ r, r < n → f r = 0) : ((List.range n).map f).sum = 0 := by
  induction n with
  | zero => rfl
  | succ n ih =>
    rw [List.range_succ, List.map_append, List.sum_append, ih fun r hr => h r (by omega)]
    simp [h n (by omega)]

/-- C27: with several processes and fewer than four elements on some process, every process just sorts its own
share, whatever the other shares hold. -/
theorem C27_isolated [DecidableEq β] (c : Cfg α β) (lt : α → α → Bool) (hs : IsSort lt c.srt)
    (hm : ∀ x, c.msg x = x) (parts : List (List α)) (ht : TotalOn lt parts.flatten)
    (p : List α) (hp : p ∈ parts) (h4 : p.length < 4) (fuel : Nat) (out : List (List α))
    (h : psort c fuel parts = some out) : out = parts.map c.srt := by
  by_cases hP : parts.length > 1
  · have hR0 : minLen parts / 4 = 0 := by
      have := minLen_le p hp
      omega
    rw [psort_many hP, hR0] at h
    have hsz : Sized parts.length 0 (fun r => (share parts r).length) (start c parts) := by
      have := start_sized hs parts
      rwa [hR0] at this
    have hR : ∀ r, r < parts.length → 0 ≤ (share parts r).length := fun _ _ => Nat.zero_le _
    have hpm := start_perm hs parts
    have hto := ht.mono fun x hx => hpm.mem_iff.1 hx
    have e0 : ∀ q, edge1 0 q = 0 := by intro q; simp [edge1]
    have hA : ∀ r, r < parts.length →
        winA parts.length 0 (body (fun r => (share parts r).length) (start c parts)) r = c.srt (share parts r) := by
      intro r hr
      unfold winA head
      simp only [e0]
      rw [start_body hs]
      simp
    have hbody : ∀ r, r < parts.length →
        body (fun r => (share parts r).length) (round c parts.length 0 (start c parts)) r = c.srt (share parts r) := by
      have hwin : ∀ r, r < parts.length →
          (winA parts.length 0 (body (fun r => (share parts r).length) (start c parts)) r).Pairwise
            fun a b => lt b a = false := by
        intro r hr; rw [hA r hr]; exact (hs _).2
      have tS : ∀ r, r < parts.length → TotalOn lt (c.srt (share parts r)) := by
        intro r hr
        apply ht.mono
        intro x hx
        rw [← flat_share]
        exact mem_flat.2 ⟨r, hr, (hs _).1.mem_iff.1 hx⟩
      have hB : ∀ r, r < parts.length →
          winB c parts.length 0 (fun r => (share parts r).length)
            (body (fun r => (share parts r).length) (start c parts)) r = c.srt (share parts r) := by
        intro r hr
        unfold winB back
        have hl := (hs (share parts r)).1.length_eq
        simp only [e0]
        rw [hA r hr, srt_id hs (tS r hr) (hs _).2]
        rw [List.take_of_length_le (by omega)]
        by_cases h0 : r = 0
        · simp [h0]
        · have hl' := (hs (share parts (r - 1))).1.length_eq
          rw [if_neg h0, hA (r - 1) (by omega), srt_id hs (tS (r - 1) (by omega)) (hs _).2,
            List.drop_eq_nil_of_le (by omega), List.nil_append]
      intro r hr
      rw [round_body hs hm hsz hR hr, hB r hr, srt_id hs (tS r hr) (hs _).2]
    simp only [Option.map_eq_some_iff] at h
    obtain ⟨t', hl, rfl⟩ := h
    cases fuel with
    | zero => simp [loop] at hl
    | succ n =>
      unfold loop at hl
      have hc : changed c parts.length (fun r => (share parts r).length) (start c parts)
          (round c parts.length 0 (start c parts)) = false :=
        changed_false.2 fun r hr => by rw [hbody r hr, start_body hs]
      rw [hc] at hl
      simp only [Bool.false_eq_true, if_false, Option.some.injEq] at hl
      subst hl
      apply List.ext_getElem
      · simp
      · intro i h1 h2
        have hi : i < parts.length := by simpa using h2
        simp only [List.getElem_map, List.getElem_range]
        rw [hbody i hi]
        rw [share_eq hi]
  · rw [psort_one hP, Option.some.injEq] at h
    exact h.symm

example : ([5, 1, 0] : List Nat) ∈ [[9, 8, 7, 6, 5], [5, 1, 0]] ∧ ([5, 1, 0] : List Nat).length < 4 := by decide

/-! Traces. -/

/-- C27 for traces: sorting by any sort type a set of traces with distinct local and distinct global trace
numbers, at least four on each process, none with a copied header that the exchange would lose. -/
theorem C27_traces_partial (o : OffFn) (ty : SortType) (srt : List Rec → List Rec)
    (hs : IsSort (fun a b => getComp o ty a.tr b.tr) srt) (parts : List (List Rec))
    (hltn : ∀ a ∈ parts.flatten, ∀ b ∈ parts.flatten, a.tr.ltn = b.tr.ltn → a = b)
    (hgtn : ∀ a ∈ parts.flatten, ∀ b ∈ parts.flatten, a.gtn = b.gtn → a = b)
    (h4 : parts.length ≤ 1 ∨ ∀ p ∈ parts, 4 ≤ p.length) (d : Rec) :
    ∃ n out, (∀ fuel, n ≤ fuel → psort { srt := srt, msg := id, key := Rec.gtn, dflt := d } fuel parts = some out) ∧
      out.flatten.Pairwise (fun a b => getComp o ty b.tr a.tr = false) ∧ out.flatten.Perm parts.flatten ∧
      out.map List.length = parts.map List.length := by
  obtain ⟨c1, c2, c3⟩ := C26_strict_total o ty
  have ht : TotalOn (fun a b : Rec => getComp o ty a.tr b.tr) parts.flatten := by
    refine ⟨fun a _ => c1 a.tr, fun a _ b _ d _ => c2 a.tr b.tr d.tr, ?_⟩
    intro a ha b hb hne
    have : a.tr.ltn ≠ b.tr.ltn := fun he => hne (hltn a ha b hb he)
    rcases c3 a.tr b.tr this with h | h
    · exact Or.inl h.1
    · exact Or.inr h.2
  obtain ⟨n, out, h⟩ := C28_ends { srt := srt, msg := id, key := Rec.gtn, dflt := d } _ hs (fun _ => rfl) parts ht
  obtain ⟨h1, h2, h3⟩ := C27_sorted_partial { srt := srt, msg := id, key := Rec.gtn, dflt := d } _ hs (fun _ => rfl) parts ht
    hgtn n out (h n (Nat.le_refl _))
  exact ⟨n, out, h, h1 h4, h2, h3⟩

/-- Trace `k` of the examples. -/
def exTr (k : Nat) : Rec := ⟨⟨(k % 3 : Nat), (k % 5 : Nat), k, 0, 0, 0, 0, k⟩, k, []⟩

/-- Eight traces on two processes meet the hypotheses of `C27_traces_partial`. -/
example : (∀ a ∈ [[exTr 7, exTr 6, exTr 5, exTr 4], [exTr 3, exTr 2, exTr 1, exTr 0]].flatten,
    ∀ b ∈ [[exTr 7, exTr 6, exTr 5, exTr 4], [exTr 3, exTr 2, exTr 1, exTr 0]].flatten, a.tr.ltn = b.tr.ltn → a = b) ∧
    (∀ a ∈ [[exTr 7, exTr 6, exTr 5, exTr 4], [exTr 3, exTr 2, exTr 1, exTr 0]].flatten,
    ∀ b ∈ [[exTr 7, exTr 6, exTr 5, exTr 4], [exTr 3, exTr 2, exTr 1, exTr 0]].flatten, a.gtn = b.gtn → a = b) := by
  decide +kernel

/-- A stable sort by insertion, for the examples. -/
def insSort (lt : α → α → Bool) : List α → List α
  | [] => []
  | a :: l => ins (insSort lt l) a
where
  ins : List α → α → List α
    | [], a => [a]
    | b :: l, a => if lt b a then b :: ins l a else a :: b :: l

/-- C55 fails: the raw headers that a rule copies are not part of the messages between processes. Eight traces
whose copied headers hold a byte each; after sorting over two processes some header is blank. The record that
arrives is the one sent with a blank header (`src/sort.cc` 703-862: arrays `f`, `i`, `s`, `t` are sent, `c` not). -/
theorem C55_headers_refuted : ¬ ∀ (parts : List (List (Nat × Nat))) (fuel : Nat) (out : List (List (Nat × Nat))),
    psort { srt := insSort (fun a b => decide (a.1 < b.1)), msg := fun x => (x.1, 0), key := Prod.fst,
            dflt := (0, 0) } fuel parts = some out → out.flatten.Perm parts.flatten := by
  intro h
  have h1 := h [[(7, 8), (6, 7), (5, 6), (4, 5)], [(3, 4), (2, 3), (1, 2), (0, 1)]] 20
    [[(0, 0), (1, 0), (2, 0), (3, 0)], [(4, 0), (5, 0), (6, 0), (7, 0)]] (by decide +kernel)
  have := h1.mem_iff (a := (0, 0))
  revert this
  decide

/-- C55, kept part. If the rule copies no header, every record arrives whole. -/
theorem C55_records_partial [DecidableEq β] (c : Cfg α β) (lt : α → α → Bool) (hs : IsSort lt c.srt)
    (hm : ∀ x, c.msg x = x) (parts : List (List α)) (ht : TotalOn lt parts.flatten)
    (hk : ∀ a ∈ parts.flatten, ∀ b ∈ parts.flatten, c.key a = c.key b → a = b)
    (fuel : Nat) (out : List (List α)) (h : psort c fuel parts = some out) (x : α) :
    x ∈ out.flatten ↔ x ∈ parts.flatten :=
  (C27_sorted_partial c lt hs hm parts ht hk fuel out h).2.1.mem_iff

example : psort natCfg 10 [[9, 8, 7, 6], [5, 4, 3, 2]] = some [[2, 3, 4, 5], [6, 7, 8, 9]] := by decide +kernel

/-! File order. -/

theorem flatten_zipIdx (list : List (List Nat)) (n : Nat) :
    ((List.range list.length).map fun r => (share list r).zipIdx (before list r + n)).flatten
      = list.flatten.zipIdx n := by
  induction list generalizing n with
  | nil => rfl
  | cons a l ih =>
    rw [List.length_cons, List.range_succ_eq_map, List.map_cons, List.flatten_cons, List.map_map]
    have h0 : (share (a :: l) 0).zipIdx (before (a :: l) 0 + n) = a.zipIdx n := by simp [share, before]
    have h1 : ((fun r => (share (a :: l) r).zipIdx (before (a :: l) r + n)) ∘ Nat.succ)
        = fun r => (share l r).zipIdx (before l r + (n + a.length)) := by
      funext r
      simp only [Function.comp]
      have e1 : share (a :: l) r.succ = share l r := by simp [share]
      have e2 : before (a :: l) r.succ = a.length + before l r := by simp [before]
      rw [e1, e2, show a.length + before l r + n = before l r + (n + a.length) by omega]
    rw [h0, h1, ih, List.flatten_cons, List.zipIdx_append, Nat.add_comm]

theorem plist_flatten (list : List (List Nat)) : (plist list).flatten = list.flatten.zipIdx := by
  have := flatten_zipIdx list 0
  simpa [plist] using this

theorem plist_lengths (list : List (List Nat)) : (plist list).map List.length = list.map List.length := by
  unfold plist
  apply List.ext_getElem
  · simp
  · intro i h1 h2
    have hi : i < list.length := by simpa using h2
    simp only [List.getElem_map, List.getElem_range, List.length_zipIdx]
    rw [share_eq hi]

theorem pairLt_total (l : List (Nat × Nat)) : TotalOn pairLt l := by
  refine ⟨?_, ?_, ?_⟩
  · intro a _; simp [pairLt]
  · intro a _ b _ c _
    simp only [pairLt, Bool.or_eq_true, Bool.and_eq_true, decide_eq_true_eq]
    omega
  · intro a _ b _ hne
    simp only [pairLt, Bool.or_eq_true, Bool.and_eq_true, decide_eq_true_eq]
    have : a.1 ≠ b.1 ∨ a.2 ≠ b.2 := by
      by_contra h
      push Not at h
      exact hne (Prod.ext h.1 h.2)
    omega

theorem pairLt_fst {l : List (Nat × Nat)} (h : l.Pairwise fun a b => pairLt b a = false) :
    (l.map Prod.fst).Pairwise (· ≤ ·) := by
  rw [List.pairwise_map]
  refine h.imp ?_
  intro a b h
  simp only [pairLt, Bool.or_eq_false_iff, decide_eq_false_iff_not] at h
  omega

theorem four_lengths {γ δ : Type} {a : List (List γ)} {b : List (List δ)} (h : a.map List.length = b.map List.length)
    (h4 : b.length ≤ 1 ∨ ∀ p ∈ b, 4 ≤ p.length) : a.length ≤ 1 ∨ ∀ p ∈ a, 4 ≤ p.length := by
  have hl : a.length = b.length := by simpa using congrArg List.length h
  rcases h4 with h4 | h4
  · exact Or.inl (by omega)
  · refine Or.inr fun p hp => ?_
    have : p.length ∈ b.map List.length := by
      rw [← h]
      exact List.mem_map_of_mem hp
    obtain ⟨q, hq, hql⟩ := List.mem_map.1 this
    rw [← hql]
    exact h4 q hq

/-- C29, kept part. With at least four traces on every process (or one process), sorting with file order requested
ends, and if the global trace numbers are `0 … N-1` the lists returned, taken in rank order, are a permutation of
`0 … N-1` whose entry for the original trace `k` is the position of that trace in the sorted order; every process
gets as many entries as it had traces. What is missing: fewer than four traces on some process
(`C29_small_refuted`). -/
theorem C29_inverse_partial [DecidableEq β] (c : Cfg α β) (lt : α → α → Bool) (hs : IsSort lt c.srt)
    (hm : ∀ x, c.msg x = x) (srtp : List (Nat × Nat) → List (Nat × Nat)) (hsp : IsSort pairLt srtp)
    (parts : List (List α)) (ht : TotalOn lt parts.flatten)
    (hk : ∀ a ∈ parts.flatten, ∀ b ∈ parts.flatten, c.key a = c.key b → a = b)
    (gtn : α → Nat) (hg : (parts.flatten.map gtn).Perm (List.range parts.flatten.length))
    (h4 : parts.length ≤ 1 ∨ ∀ p ∈ parts, 4 ≤ p.length) :
    ∃ n out L, (∀ fuel, n ≤ fuel → sortTraces c srtp gtn true fuel parts = some (out, L)) ∧
      out.flatten.Pairwise (fun a b => lt b a = false) ∧ out.flatten.Perm parts.flatten ∧
      L.flatten.Perm (List.range parts.flatten.length) ∧
      (∀ k p, L.flatten[k]? = some p → (out.flatten[p]?).map gtn = some k) ∧
      L.map List.length = parts.map List.length := by
  obtain ⟨n1, out, h1⟩ := C28_ends c lt hs hm parts ht
  obtain ⟨o1, o2, o3⟩ := C27_sorted_partial c lt hs hm parts ht hk n1 out (h1 n1 (Nat.le_refl _))
  let list := out.map fun q => q.map gtn
  have hlist : list.flatten = out.flatten.map gtn := by simp [list, List.map_flatten]
  have hlens : list.map List.length = parts.map List.length := by
    rw [← o3]
    simp [list, Function.comp_def]
  let cp : Cfg (Nat × Nat) (Nat × Nat) := { srt := srtp, msg := id, key := id, dflt := (0, 0) }
  obtain ⟨n2, Q, h2⟩ := C28_ends cp pairLt hsp (fun _ => rfl) (plist list) (pairLt_total _)
  obtain ⟨q1, q2, q3⟩ := C27_sorted_partial cp pairLt hsp (fun _ => rfl) (plist list) (pairLt_total _)
    (fun a _ b _ h => h) n2 Q (h2 n2 (Nat.le_refl _))
  have h4p := four_lengths ((plist_lengths list).trans hlens) h4
  have qs := q1 h4p
  rw [plist_flatten, hlist] at q2
  have hN : (out.flatten.map gtn).Perm (List.range parts.flatten.length) := (o2.map gtn).trans hg
  have hfst : Q.flatten.map Prod.fst = List.range parts.flatten.length := by
    refine List.Perm.eq_of_pairwise (le := (· ≤ ·)) ?_ (pairLt_fst qs) List.pairwise_le_range ?_
    · intro a b _ _ h h'; omega
    · have := (q2.map Prod.fst).trans (by rw [List.zipIdx_map_fst] : _)
      exact this.trans hN
  refine ⟨max n1 n2, out, Q.map fun q => q.map Prod.snd, ?_, o1 h4, o2, ?_, ?_, ?_⟩
  · intro fuel hf
    have := Nat.max_le.1 hf
    unfold sortTraces
    rw [h1 fuel this.1]
    simp only [if_true]
    unfold sortList
    rw [show psort _ fuel (plist _) = some Q from h2 fuel this.2]
    rfl
  · have : (Q.map fun q => q.map Prod.snd).flatten = Q.flatten.map Prod.snd := by simp [List.map_flatten]
    rw [this]
    refine (q2.map Prod.snd).trans ?_
    rw [List.zipIdx_map_snd, List.length_map, o2.length_eq, List.range'_eq_map_range]
    simp
  · intro k p hkp
    have e1 : (Q.map fun q => q.map Prod.snd).flatten = Q.flatten.map Prod.snd := by simp [List.map_flatten]
    rw [e1, List.getElem?_map, Option.map_eq_some_iff] at hkp
    obtain ⟨pr, hpr, rfl⟩ := hkp
    have hf : (Q.flatten.map Prod.fst)[k]? = some pr.1 := by rw [List.getElem?_map, hpr]; rfl
    rw [hfst] at hf
    obtain ⟨hk1, hk2⟩ := List.getElem?_eq_some_iff.1 hf
    rw [List.getElem_range] at hk2
    have hmem : pr ∈ (out.flatten.map gtn).zipIdx := q2.mem_iff.1 (List.mem_of_getElem? hpr)
    have := List.mem_zipIdx_iff_getElem?.1 hmem
    rw [List.getElem?_map] at this
    rw [this, hk2]
  · rw [List.map_map]
    have : (List.length ∘ fun q : List (Nat × Nat) => q.map Prod.snd) = List.length := by
      funext q; simp
    rw [this, q3, plist_lengths, hlens]

/-- C29 for trace numbers that increase along the processes without being `0 … N-1`: entry `k` of the lists returned
is the position, in the sorted order, of the `k`-th trace of the input. -/
theorem C29_positions_partial [DecidableEq β] (c : Cfg α β) (lt : α → α → Bool) (hs : IsSort lt c.srt)
    (hm : ∀ x, c.msg x = x) (srtp : List (Nat × Nat) → List (Nat × Nat)) (hsp : IsSort pairLt srtp)
    (parts : List (List α)) (ht : TotalOn lt parts.flatten)
    (hk : ∀ a ∈ parts.flatten, ∀ b ∈ parts.flatten, c.key a = c.key b → a = b)
    (gtn : α → Nat) (hg : (parts.flatten.map gtn).Pairwise (· < ·))
    (h4 : parts.length ≤ 1 ∨ ∀ p ∈ parts, 4 ≤ p.length) :
    ∃ n out L, (∀ fuel, n ≤ fuel → sortTraces c srtp gtn true fuel parts = some (out, L)) ∧
      out.flatten.Pairwise (fun a b => lt b a = false) ∧ out.flatten.Perm parts.flatten ∧
      L.flatten.Perm (List.range parts.flatten.length) ∧
      (∀ k p : Nat, L.flatten[k]? = some p → out.flatten[p]? = parts.flatten[k]?) ∧
      L.map List.length = parts.map List.length := by
  obtain ⟨n1, out, h1⟩ := C28_ends c lt hs hm parts ht
  obtain ⟨o1, o2, o3⟩ := C27_sorted_partial c lt hs hm parts ht hk n1 out (h1 n1 (Nat.le_refl _))
  let list := out.map fun q => q.map gtn
  have hlist : list.flatten = out.flatten.map gtn := by simp [list, List.map_flatten]
  have hlens : list.map List.length = parts.map List.length := by
    rw [← o3]
    simp [list, Function.comp_def]
  let cp : Cfg (Nat × Nat) (Nat × Nat) := { srt := srtp, msg := id, key := id, dflt := (0, 0) }
  obtain ⟨n2, Q, h2⟩ := C28_ends cp pairLt hsp (fun _ => rfl) (plist list) (pairLt_total _)
  obtain ⟨q1, q2, q3⟩ := C27_sorted_partial cp pairLt hsp (fun _ => rfl) (plist list) (pairLt_total _)
    (fun a _ b _ h => h) n2 Q (h2 n2 (Nat.le_refl _))
  have h4p := four_lengths ((plist_lengths list).trans hlens) h4
  have qs := q1 h4p
  rw [plist_flatten, hlist] at q2
  have hfst : Q.flatten.map Prod.fst = parts.flatten.map gtn := by
    refine List.Perm.eq_of_pairwise (le := (· ≤ ·)) ?_ (pairLt_fst qs) (hg.imp (fun h => Nat.le_of_lt h)) ?_
    · intro a b _ _ h h'; omega
    · have := (q2.map Prod.fst).trans (by rw [List.zipIdx_map_fst] : _)
      exact this.trans (o2.map gtn)
  refine ⟨max n1 n2, out, Q.map fun q => q.map Prod.snd, ?_, o1 h4, o2, ?_, ?_, ?_⟩
  · intro fuel hf
    have := Nat.max_le.1 hf
    unfold sortTraces
    rw [h1 fuel this.1]
    simp only [if_true]
    unfold sortList
    rw [show psort _ fuel (plist _) = some Q from h2 fuel this.2]
    rfl
  · have : (Q.map fun q => q.map Prod.snd).flatten = Q.flatten.map Prod.snd := by simp [List.map_flatten]
    rw [this]
    refine (q2.map Prod.snd).trans ?_
    rw [List.zipIdx_map_snd, List.length_map, o2.length_eq, List.range'_eq_map_range]
    simp
  · intro k p hkp
    have e1 : (Q.map fun q => q.map Prod.snd).flatten = Q.flatten.map Prod.snd := by simp [List.map_flatten]
    rw [e1, List.getElem?_map, Option.map_eq_some_iff] at hkp
    obtain ⟨pr, hpr, rfl⟩ := hkp
    have hf : (Q.flatten.map Prod.fst)[k]? = some pr.1 := by rw [List.getElem?_map, hpr]; rfl
    rw [hfst, List.getElem?_map, Option.map_eq_some_iff] at hf
    obtain ⟨x, hx1, hx2⟩ := hf
    have hmem : pr ∈ (out.flatten.map gtn).zipIdx := q2.mem_iff.1 (List.mem_of_getElem? hpr)
    have := List.mem_zipIdx_iff_getElem?.1 hmem
    rw [List.getElem?_map, Option.map_eq_some_iff] at this
    obtain ⟨y, hy1, hy2⟩ := this
    rw [hx1, hy1]
    have hyin : y ∈ parts.flatten := o2.mem_iff.1 (List.mem_of_getElem? hy1)
    have hxin : x ∈ parts.flatten := List.mem_of_getElem? hx1
    rw [List.pairwise_map] at hg
    have hinj : ∀ a ∈ parts.flatten, ∀ b ∈ parts.flatten, gtn a = gtn b → a = b := by
      intro a ha b hb hab
      by_contra hne
      rcases List.Pairwise.forall_of_forall_of_flip (l := parts.flatten) (R := fun a b => a ≠ b → gtn a ≠ gtn b)
        (fun _ _ h => absurd rfl h) (hg.imp fun h _ => by omega) (hg.imp fun h _ => by omega) ha hb with h
      exact h hne hab
    rw [hinj x hxin y hyin (by omega)]
  · rw [List.map_map]
    have : (List.length ∘ fun q : List (Nat × Nat) => q.map Prod.snd) = List.length := by
      funext q; simp
    rw [this, q3, plist_lengths, hlens]

example : ([[(3, 0), (1, 2), (7, 4), (2, 6)], [(9, 9), (0, 10), (5, 12), (4, 13)]].flatten.map
    (Prod.snd : Nat × Nat → Nat)).Pairwise (· < ·) := by decide

/-- The hypotheses of `C29_inverse_partial` are met by eight numbered traces on two processes: trace `k` of
value `(3 k) mod 8`. -/
example : (([[0, 3, 6, 1], [4, 7, 2, 5]].flatten).map fun v => 3 * v % 8).Perm (List.range 8) := by decide +kernel

example : sortTraces natCfg (insSort pairLt) (fun v => 3 * v % 8) true 50 [[0, 3, 6, 1], [4, 7, 2, 5]]
    = some ([[0, 1, 2, 3], [4, 5, 6, 7]], [[0, 3, 6, 1], [4, 7, 2, 5]]) := by decide +kernel

/-- C29 fails with fewer than four traces on a process: three traces with the values 2, 1 and 0 on two processes.
The traces are left out of order, and the positions returned are those of a list that is not the sorted one. -/
theorem C29_small_refuted : ¬ ∀ (parts : List (List Nat)) (gtn : Nat → Nat) (fuel : Nat) (out L : List (List Nat)),
    (parts.flatten.map gtn).Perm (List.range parts.flatten.length) →
    sortTraces natCfg (insSort pairLt) gtn true fuel parts = some (out, L) →
    out.flatten.Pairwise (· ≤ ·) ∧ ∀ k p, L.flatten[k]? = some p → (out.flatten[p]?).map gtn = some k := by
  intro h
  have := (h [[2, 1], [0]] (fun v => 2 - v) 5 [[1, 2], [0]] [[1, 0], [2]] (by decide) (by decide +kernel)).1
  revert this
  decide

/-! `checkOrder`. -/

theorem checkOrder_iff {comp : α → α → Bool} (l : List α) :
    checkOrder comp l = true ↔ l.IsChain (fun a b => comp a b = true) := by
  induction l with
  | nil => simp [checkOrder]
  | cons a l ih =>
    cases l with
    | nil => simp [checkOrder]
    | cons b l' =>
      unfold checkOrder
      rw [List.isChain_cons_cons]
      cases h : comp a b
      · simp
      · simpa using ih

/-- C30, kept part. A process reports success exactly if its own share is ordered; if the whole file is ordered
every process reports success; and if every process reports success and each share's last trace precedes the next
share's first one (shares not empty), the whole file is ordered. What is missing: nothing looks at the traces on
either side of a boundary (`C30_boundary_refuted`). -/
theorem C30_check_partial (o : OffFn) (ty : SortType) (parts : List (List Tr)) :
    (∀ p, checkOrder (getComp o ty) p = true ↔ p.Pairwise fun a b => getComp o ty a b = true) ∧
    (parts.flatten.Pairwise (fun a b => getComp o ty a b = true) → ∀ p ∈ parts, checkOrder (getComp o ty) p = true) ∧
    ((∀ p ∈ parts, p ≠ [] ∧ checkOrder (getComp o ty) p = true) →
      parts.IsChain (fun p q => ∀ a ∈ p.getLast?, ∀ b ∈ q.head?, getComp o ty a b = true) →
      parts.flatten.Pairwise fun a b => getComp o ty a b = true) := by
  have htr := (C26_strict_total o ty).2.1
  have hpw : ∀ p : List Tr, checkOrder (getComp o ty) p = true ↔ p.Pairwise fun a b => getComp o ty a b = true := by
    intro p
    rw [checkOrder_iff]
    have : Trans (fun a b : Tr => getComp o ty a b = true) (fun a b : Tr => getComp o ty a b = true)
        (fun a b : Tr => getComp o ty a b = true) := ⟨fun {a b c} => htr a b c⟩
    exact List.isChain_iff_pairwise
  refine ⟨hpw, ?_, ?_⟩
  · intro h p hp
    rw [hpw]
    exact (List.pairwise_flatten.1 h).1 p hp
  · intro h1 h2
    induction parts with
    | nil => simp
    | cons p l ih =>
      have ihl := ih (fun q hq => h1 q (by simp [hq])) h2.tail
      have hp := (hpw p).1 (h1 p (by simp)).2
      rw [List.flatten_cons, List.pairwise_append]
      refine ⟨hp, ihl, ?_⟩
      cases l with
      | nil => simp
      | cons q l' =>
        have hpq := (List.isChain_cons_cons.1 h2).1
        obtain ⟨p', x, rfl⟩ : ∃ p' x, p = p' ++ [x] := by
          rcases List.eq_nil_or_concat p with rfl | ⟨x', y, rfl⟩
          · exact absurd rfl (h1 [] (by simp)).1
          · exact ⟨x', y, List.concat_eq_append ..⟩
        obtain ⟨y, q', rfl⟩ := List.exists_cons_of_ne_nil (h1 q (by simp)).1
        have hxy : getComp o ty x y = true := hpq x (by simp) y (by simp)
        intro a ha b hb
        have hay : getComp o ty a y = true := by
          rcases List.mem_append.1 ha with h | h
          · exact htr a x y ((List.pairwise_append.1 hp).2.2 a h x (by simp)) hxy
          · rw [List.mem_singleton.1 h]; exact hxy
        rw [List.flatten_cons, List.cons_append] at hb ihl
        rcases List.mem_cons.1 hb with h | h
        · rw [h]; exact hay
        · exact htr a y b hay ((List.pairwise_cons.1 ihl).1 b h)

/-- Two shares of two traces in order. -/
example : (∀ p ∈ [[(exTr 0).tr, (exTr 1).tr], [(exTr 2).tr]], p ≠ [] ∧ checkOrder (getComp off 35) p = true) := by
  decide +kernel

/-- C30 fails: two processes with one trace each, in the wrong order; both report success. -/
theorem C30_boundary_refuted : ¬ ∀ (o : OffFn) (ty : SortType) (parts : List (List Tr)),
    (∀ p ∈ parts, checkOrder (getComp o ty) p = true) → parts.flatten.Pairwise fun a b => getComp o ty a b = true := by
  intro h
  have := h off 35 [[⟨1, 0, 0, 0, 0, 0, 0, 0⟩], [⟨0, 0, 0, 0, 0, 0, 0, 1⟩]] (by decide +kernel)
  revert this
  decide +kernel

end Verif.Sort
