import Verif.Flow.Lemmas
import Verif.Props.Sort

/-!
C31 (adding files to a set), C32 (sorting a set), C34 (names of the files a set writes).
-/

namespace Verif.Flow

open Verif.Decomp
open Verif.Sort hiding off

/-! C31. -/

theorem expected_file (P r o : Nat) (fs : List FileIn) : (expected P r o fs).map Desc.file = fs := by
  induction fs generalizing o with
  | nil => rfl
  | cons f fs ih => simp [expected, ih]

theorem expected_lengths (P r o : Nat) (fs : List FileIn) : ∀ d ∈ expected P r o fs, d.ilst.length = d.olst.length := by
  induction fs generalizing o with
  | nil => simp [expected]
  | cons f fs ih =>
    intro d hd
    rcases List.mem_cons.1 hd with h | h
    · rw [h]; simp [iota]
    · exact ih _ d h

theorem flatMap_off (P nt o : Nat) (m : Nat) :
    (List.range m).flatMap (fun r => List.range' (o + off nt P r) (sz nt P r)) = List.range' o (off nt P m) := by
  induction m with
  | zero => simp [off_zero]
  | succ k ih =>
    rw [List.range_succ, List.flatMap_append, ih, off_succ]
    simp [List.range'_append_1]

theorem flatMap_congr' {α : Type} {P : Nat} {f g : Nat → List α} (h : ∀ r, r < P → f r = g r) :
    (List.range P).flatMap f = (List.range P).flatMap g :=
  List.flatMap_congr fun r hr => h r (List.mem_range.1 hr)

theorem expected_ilst {P : Nat} (hP : 0 < P) (fs : List FileIn) (hb : ∀ f ∈ fs, f.nt < 2 ^ 64) :
    ∀ (o j : Nat) (h : j < fs.length),
      (List.range P).flatMap (fun r => ((expected P r o fs).getD j default).ilst) = List.range fs[j].nt := by
  induction fs with
  | nil => intro o j h; simp at h
  | cons f fs ih =>
    intro o j h
    have hf := hb f (by simp)
    cases j with
    | zero =>
      simp only [expected, List.getD_cons_zero, List.getElem_cons_zero]
      have h0 := flatMap_off P f.nt 0 P
      rw [off_last f.nt P hP, ← List.range_eq_range'] at h0
      rw [← h0]
      apply flatMap_congr'
      intro r hr
      have h1 := off_le f.nt P (r + 1) hP (by omega)
      rw [off_succ] at h1
      rw [iota_eq (by omega), Nat.zero_add]
    | succ j =>
      simp only [expected, List.getD_cons_succ, List.getElem_cons_succ]
      have := ih (fun g hg => hb g (by simp [hg])) (add64 o f.nt) j (by simpa using h)
      exact this

theorem expected_olst {P : Nat} (hP : 0 < P) (fs : List FileIn) : ∀ (o : Nat), o + (fs.map FileIn.nt).sum < 2 ^ 64 →
    (List.range fs.length).flatMap (fun j => (List.range P).flatMap fun r => ((expected P r o fs).getD j default).olst)
      = List.range' o (fs.map FileIn.nt).sum := by
  induction fs with
  | nil => intro o _; simp
  | cons f fs ih =>
    intro o ho
    rw [List.map_cons, List.sum_cons] at ho
    have ih' := ih (o + f.nt) (by omega)
    have h0 : (List.range P).flatMap (fun r => ((expected P r o (f :: fs)).getD 0 default).olst) = List.range' o f.nt := by
      have := flatMap_off P f.nt o P
      rw [off_last f.nt P hP] at this
      rw [← this]
      apply flatMap_congr'
      intro r hr
      have h1 := off_le f.nt P (r + 1) hP (by omega)
      rw [off_succ] at h1
      simp only [expected, List.getD_cons_zero]
      rw [add64_eq (by omega), iota_eq (by omega)]
    rw [List.length_cons, List.range_succ_eq_map, List.flatMap_cons, h0, List.flatMap_map]
    simp only [expected, List.getD_cons_succ]
    rw [add64_eq (by omega), ih', List.map_cons, List.sum_cons, List.range'_append_1]

/-- C31, kept part. Adding any list of files on any number of processes, the descriptors of a group (files with the
same number of samples and interval) are those of its files, in the order of adding; for every file the processes'
input lists in rank order are `0 … nt-1`; and the output positions, file by file and within a file in rank order, are
`0 … total-1`. So positions enumerate the output once and keep the order of files and traces. What is missing: that
files of different geometry never share an output (`C31_share_refuted`). -/
theorem C31_positions_partial (P : Nat) (hP : 0 < P) (files : List FileIn) (hb : ∀ f ∈ files, f.nt < 2 ^ 64) (k : Key)
    (hN : ((files.filter fun f => (f.ns, f.inc) = k).map FileIn.nt).sum < 2 ^ 64) :
    ∃ st : Nat → List Group, (∀ r, r < P → addAll P r [] files = .ok (st r)) ∧
      (∀ r, r < P → (descsOf k (st r)).map Desc.file = files.filter fun f => (f.ns, f.inc) = k) ∧
      (∀ r, r < P → ∀ d ∈ descsOf k (st r), d.ilst.length = d.olst.length) ∧
      (∀ (j : Nat) (f : FileIn), (files.filter fun f => (f.ns, f.inc) = k)[j]? = some f →
        (List.range P).flatMap (fun r => ((descsOf k (st r)).getD j default).ilst) = List.range f.nt) ∧
      (List.range (files.filter fun f => (f.ns, f.inc) = k).length).flatMap
          (fun j => (List.range P).flatMap fun r => ((descsOf k (st r)).getD j default).olst)
        = List.range ((files.filter fun f => (f.ns, f.inc) = k).map FileIn.nt).sum := by
  revert hN
  rw [show (fun f : FileIn => decide ((f.ns, f.inc) = k)) = fun f => decide (f.key = k) from rfl]
  intro hN
  have hex : ∀ r, ∃ gs, r < P → addAll P r [] files = .ok gs ∧
      descsOf k gs = expected P r 0 (files.filter fun f => f.key = k) := by
    intro r
    by_cases hr : r < P
    · obtain ⟨gs, h1, _, h3⟩ := addAll_spec hP hr files [] List.Pairwise.nil hb
      exact ⟨gs, fun _ => ⟨h1, by rw [h3 k]; simp [descsOf, offOf]⟩⟩
    · exact ⟨[], fun h => absurd h hr⟩
  choose st hst using hex
  refine ⟨st, fun r hr => (hst r hr).1, ?_, ?_, ?_, ?_⟩
  · intro r hr
    rw [(hst r hr).2, expected_file]
  · intro r hr
    rw [(hst r hr).2]
    exact expected_lengths P r 0 _
  · intro j f hf
    obtain ⟨hj, hjf⟩ := List.getElem?_eq_some_iff.1 hf
    have := expected_ilst hP (files.filter fun f => f.key = k)
      (fun g hg => hb g (List.mem_of_mem_filter hg)) 0 j hj
    rw [hjf] at this
    rw [← this]
    apply flatMap_congr'
    intro r hr
    rw [(hst r hr).2]
  · have := expected_olst hP (files.filter fun f => f.key = k) 0 (by omega)
    rw [← List.range_eq_range'] at this
    rw [← this]
    congr 1
    funext j
    apply flatMap_congr'
    intro r hr
    rw [(hst r hr).2]

/-- Three files, two of the same geometry. -/
example : ∀ f ∈ ([⟨100, 4, 7⟩, ⟨200, 4, 9⟩, ⟨100, 4, 3⟩] : List FileIn), f.nt < 2 ^ 64 := by decide

example : (addAll 2 1 [] [⟨100, 4, 7⟩, ⟨200, 4, 9⟩, ⟨100, 4, 3⟩]) = .ok
    [⟨(100, 4), 10, [⟨⟨100, 4, 7⟩, [4, 5, 6], [4, 5, 6]⟩, ⟨⟨100, 4, 3⟩, [2], [9]⟩]⟩,
     ⟨(200, 4), 9, [⟨⟨200, 4, 9⟩, [5, 6, 7, 8], [5, 6, 7, 8]⟩]⟩] := by decide +kernel

/-! C34, names. -/

/-- Files of different geometry share an output: with one file of each geometry both groups are written to
`outfix.segy`, on one process and whatever the printing of intervals. -/
theorem C31_share_refuted : ¬ ∀ (outfix : List Char) (num : Int → List Char) (files : List FileIn) (gs : List Group),
    addAll 1 0 [] files = .ok gs → ∀ a ∈ gs, ∀ b ∈ gs, a.key ≠ b.key → groupName outfix num a ≠ groupName outfix num b := by
  intro h
  have := h ['o'] (fun _ => []) [⟨100, 4, 1⟩, ⟨200, 4, 1⟩]
    [⟨(100, 4), 1, [⟨⟨100, 4, 1⟩, [0], [0]⟩]⟩, ⟨(200, 4), 1, [⟨⟨200, 4, 1⟩, [0], [0]⟩]⟩] (by decide +kernel)
    ⟨(100, 4), 1, [⟨⟨100, 4, 1⟩, [0], [0]⟩]⟩ (by simp) ⟨(200, 4), 1, [⟨⟨200, 4, 1⟩, [0], [0]⟩]⟩ (by simp) (by decide)
  exact this (by decide)

theorem decimal_inj {a b : Nat} (h : decimal a = decimal b) : a = b := by
  unfold decimal at h
  rw [Nat.toList_repr, Nat.toList_repr] at h
  have := congrArg (fun l => Nat.ofDigitChars 10 l 0) h
  simpa [Nat.ofDigitChars_ten_toDigits] using this

theorem decimal_digit {a : Nat} : ∀ c ∈ decimal a, c ≠ '_' := by
  intro c hc he
  unfold decimal at hc
  rw [Nat.toList_repr] at hc
  have := Nat.isDigit_of_mem_toDigits (by decide) (by decide) hc
  rw [he] at this
  exact absurd this (by decide)

theorem split_at {a b x y : List Char} (ha : ∀ c ∈ a, c ≠ '_') (hb : ∀ c ∈ b, c ≠ '_')
    (h : a ++ '_' :: x = b ++ '_' :: y) : a = b ∧ x = y := by
  induction a generalizing b with
  | nil =>
    cases b with
    | nil => exact ⟨rfl, by simpa using h⟩
    | cons c b =>
      simp only [List.nil_append, List.cons_append, List.cons.injEq] at h
      exact absurd h.1.symm (hb c (by simp))
  | cons c a ih =>
    cases b with
    | nil =>
      simp only [List.nil_append, List.cons_append, List.cons.injEq] at h
      exact absurd h.1 (ha c (by simp))
    | cons d b =>
      simp only [List.cons_append, List.cons.injEq] at h
      obtain ⟨h1, h2⟩ := ih (fun c hc => ha c (by simp [hc])) (fun c hc => hb c (by simp [hc])) h.2
      exact ⟨by rw [h.1, h1], h2⟩

theorem segy_toList : ".segy".toList = ['.', 's', 'e', 'g', 'y'] := by decide

/-- C34, names, kept part. Groups of several files get different names exactly if they differ in the number of
samples or in the printed interval, and never the name of a group of one file. Missing: two groups of one file each
(`C31_share_refuted`, `C34_names_refuted`), intervals equal in print, and the cases where `output` returns no name at
all (`C34_forgotten_refuted`). -/
theorem C34_names_partial (outfix : List Char) (num : Int → List Char) (a b : Group) (ha : a.descs.length ≠ 1) :
    (b.descs.length ≠ 1 →
      (groupName outfix num a = groupName outfix num b ↔ a.key.1 = b.key.1 ∧ num a.key.2 = num b.key.2)) ∧
    (b.descs.length = 1 → groupName outfix num a ≠ groupName outfix num b) := by
  have hform : ∀ g : Group, g.descs.length ≠ 1 →
      groupName outfix num g = outfix ++ (decimal g.key.1 ++ '_' :: (num g.key.2 ++ ".segy".toList)) := by
    intro g hg
    unfold groupName
    rw [if_neg hg]
    simp
  refine ⟨?_, ?_⟩
  · intro hb
    rw [hform a ha, hform b hb]
    constructor
    · intro h
      have h1 := List.append_cancel_left h
      obtain ⟨h2, h3⟩ := split_at decimal_digit decimal_digit h1
      exact ⟨decimal_inj h2, List.append_cancel_right h3⟩
    · rintro ⟨h1, h2⟩
      rw [h1, h2]
  · intro hb h
    rw [hform a ha] at h
    unfold groupName at h
    rw [if_pos hb] at h
    have h1 := List.append_cancel_left h
    have h2 := congrArg List.length h1
    rw [segy_toList] at h2
    simp at h2
    omega

example : (⟨(100, 4), 1, []⟩ : Group).descs.length ≠ 1 := by decide

/-- C34 fails: the names of two groups of one file each are the same, so the second overwrites the first. -/
theorem C34_names_refuted : ¬ ∀ (outfix : List Char) (num : Int → List Char) (gs : List Group),
    (gs.map Group.key).Nodup → (singleNames outfix num gs).Nodup := by
  intro h
  have := h [] (fun _ => []) [⟨(100, 4), 1, [⟨⟨100, 4, 1⟩, [0], [0]⟩]⟩, ⟨(200, 4), 1, [⟨⟨200, 4, 1⟩, [0], [0]⟩]⟩] (by decide)
  revert this
  decide

/-! C32. -/

/-- Numbers given to segments (first input index, length) one after the other: `B` more than the input index, where
`B` is the number of traces before the segment. -/
def numbers : Nat → List (Nat × Nat) → List Nat
  | _, [] => []
  | B, s :: segs => List.range' (B + s.1) s.2 ++ numbers (B + s.2) segs

theorem numbers_append (B : Nat) (a b : List (Nat × Nat)) :
    numbers B (a ++ b) = numbers B a ++ numbers (B + (a.map Prod.snd).sum) b := by
  induction a generalizing B with
  | nil => simp [numbers]
  | cons s a ih => simp [numbers, ih, Nat.add_assoc]

theorem numbers_ge (B m : Nat) (segs : List (Nat × Nat)) (h : ∀ s ∈ segs, m ≤ s.1) : ∀ x ∈ numbers B segs, B + m ≤ x := by
  induction segs generalizing B with
  | nil => simp [numbers]
  | cons s segs ih =>
    intro x hx
    rcases List.mem_append.1 hx with h1 | h1
    · have := h s (by simp)
      have := List.mem_range'_1.1 h1
      omega
    · have := ih (B + s.2) (fun t ht => h t (by simp [ht])) x h1
      omega

theorem numbers_increase (B : Nat) (segs : List (Nat × Nat)) (h : segs.Pairwise fun a b => a.1 ≤ b.1) :
    (numbers B segs).Pairwise (· < ·) := by
  induction segs generalizing B with
  | nil => simp [numbers]
  | cons s segs ih =>
    have h' := List.pairwise_cons.1 h
    refine List.pairwise_append.2 ⟨List.pairwise_lt_range', ih _ h'.2, ?_⟩
    intro x hx y hy
    have h1 := List.mem_range'_1.1 hx
    have h2 := numbers_ge _ s.1 segs h'.1 y hy
    omega

theorem le_sum {a : Nat} {l : List Nat} (h : a ∈ l) : a ≤ l.sum := by
  induction l with
  | nil => simp at h
  | cons b l ih =>
    rw [List.sum_cons]
    rcases List.mem_cons.1 h with h | h
    · omega
    · have := ih h; omega

/-- The segments of process `r`: where its share of each file starts and how long it is. -/
def segsOf (P : Nat) (nts : List Nat) (r : Nat) : List (Nat × Nat) := nts.map fun nt => (off nt P r, sz nt P r)

theorem segsOf_sum {P r : Nat} (hP : 0 < P) (hr : r < P) (nts : List Nat) :
    ((segsOf P nts r).map Prod.snd).sum ≤ nts.sum := by
  induction nts with
  | nil => simp [segsOf]
  | cons nt nts ih =>
    have := sz_le nt P r hP hr
    simp only [segsOf, List.map_cons, List.sum_cons] at *
    omega

theorem shares_eq {P r : Nat} (hP : 0 < P) (hr : r < P) (nts : List Nat) (hN : nts.sum < 2 ^ 64) :
    shares P r nts = .ok ((segsOf P nts r).map fun s => List.range' s.1 s.2) := by
  induction nts with
  | nil => rfl
  | cons nt nts ih =>
    rw [List.sum_cons] at hN
    have h1 := off_le nt P (r + 1) hP (by omega)
    rw [off_succ] at h1
    unfold shares
    rw [blockDecomposition_eq hP hr (by omega), Res.ok_bind, ih (by omega), Res.ok_bind]
    simp only [segsOf, List.map_cons]
    rw [iota_eq (by omega)]

theorem gtns_eq (B M : Nat) (segs : List (Nat × Nat)) (hs : ∀ s ∈ segs, s.1 + s.2 ≤ M) :
    ∀ loff, B + loff + (segs.map Prod.snd).sum + M < 2 ^ 64 →
      (gtns B loff (segs.map fun s => List.range' s.1 s.2)).flatten = numbers (B + loff) segs := by
  induction segs with
  | nil => intro loff _; rfl
  | cons s segs ih =>
    intro loff h
    rw [List.map_cons, List.sum_cons] at h
    have hs1 := hs s (by simp)
    simp only [List.map_cons, gtns, List.flatten_cons, numbers]
    rw [ih (fun t ht => hs t (by simp [ht])) _ (by simp; omega)]
    congr 1
    · rw [add64_eq (a := B) (by omega)]
      rw [List.range'_eq_map_range, List.range'_eq_map_range, List.map_map]
      apply List.map_congr_left
      intro i hi
      have := List.mem_range.1 hi
      simp only [Function.comp]
      rw [add64_eq (by omega)]
      omega
    · simp [Nat.add_assoc]

theorem allGtns_eq (M : Nat) (f : Nat → List (Nat × Nat)) (rs : List Nat) :
    ∀ B, (∀ r ∈ rs, ∀ s ∈ f r, s.1 + s.2 ≤ M) → B + ((rs.flatMap f).map Prod.snd).sum + M < 2 ^ 64 →
      (allGtns B (rs.map fun r => (f r).map fun s => List.range' s.1 s.2)).flatten = numbers B (rs.flatMap f) := by
  induction rs with
  | nil => intro B _ _; rfl
  | cons r rs ih =>
    intro B hs h
    rw [List.flatMap_cons, List.map_append, List.sum_append] at h
    simp only [List.map_cons, allGtns, List.flatten_cons, List.flatMap_cons]
    rw [numbers_append, gtns_eq B M (f r) (hs r (by simp)) 0 (by omega)]
    have hl : ((f r).map fun s => List.range' s.1 s.2).flatten.length = ((f r).map Prod.snd).sum := by
      simp [List.length_flatten, Function.comp_def]
    rw [hl, ih _ (fun q hq => hs q (by simp [hq])) (by omega)]
    rfl

theorem segs_sum {P : Nat} (hP : 0 < P) (nts : List Nat) :
    (((List.range P).flatMap (segsOf P nts)).map Prod.snd).sum = nts.sum := by
  have hcum : ∀ m, (((List.range m).flatMap (segsOf P nts)).map Prod.snd).sum = (nts.map fun nt => off nt P m).sum := by
    intro m
    induction m with
    | zero =>
      simp only [List.range_zero, List.flatMap_nil, List.map_nil, List.sum_nil, off_zero]
      clear hP
      induction nts with
      | nil => rfl
      | cons a l ih => simp
    | succ m ih =>
      rw [List.range_succ, List.flatMap_append, List.map_append, List.sum_append, ih]
      simp only [List.flatMap_cons, List.flatMap_nil, List.append_nil, off_succ]
      clear ih hP
      unfold segsOf
      induction nts with
      | nil => rfl
      | cons a l ih => simp only [List.map_cons, List.sum_cons] at *; omega
  rw [hcum P]
  clear hcum
  induction nts with
  | nil => rfl
  | cons a l ih => rw [List.map_cons, List.sum_cons, List.sum_cons, ih, off_last a P hP]

/-- The starts of the shares grow along the processes and files if there is one process, or at most one file, or all
files have the same number of traces. -/
theorem segs_mono {P : Nat} (hP : 0 < P) (nts : List Nat)
    (hc : P = 1 ∨ ∀ a ∈ nts, ∀ b ∈ nts, a = b) :
    ((List.range P).flatMap (segsOf P nts)).Pairwise fun a b => a.1 ≤ b.1 := by
  rcases hc with hc | hc
  · subst hc
    simp only [List.range_one, List.flatMap_cons, List.flatMap_nil, List.append_nil, segsOf]
    rw [List.pairwise_map]
    apply List.pairwise_of_forall
    simp [off_zero]
  · rw [List.pairwise_flatMap]
    refine ⟨?_, ?_⟩
    · intro r _
      unfold segsOf
      rw [List.pairwise_map]
      have : ∀ a ∈ nts, ∀ b ∈ nts, off a P r ≤ off b P r := by
        intro a ha b hb
        rw [hc a ha b hb]
      exact List.pairwise_of_forall_mem_list this
    · refine List.pairwise_lt_range.imp ?_
      intro r r' hrr x hx y hy
      unfold segsOf at hx hy
      obtain ⟨a, ha, rfl⟩ := List.mem_map.1 hx
      obtain ⟨b, hb, rfl⟩ := List.mem_map.1 hy
      rw [hc a ha b hb]
      exact off_mono b P (by omega)

/-- A local trace number is the input index times the number of files, plus the place of the file. -/
theorem mem_ltns (n M : Nat) (hM : (M + 1) * n < 2 ^ 64) (segs : List (Nat × Nat)) : ∀ c, c + segs.length ≤ n →
    (∀ s ∈ segs, s.1 + s.2 ≤ M) → ∀ x ∈ (ltns n c (segs.map fun s => List.range' s.1 s.2)).flatten,
      ∃ j i s, segs[j]? = some s ∧ s.1 ≤ i ∧ i < s.1 + s.2 ∧ x = i * n + (c + j) := by
  induction segs with
  | nil => intro c _ _ x hx; simp [ltns] at hx
  | cons s segs ih =>
    intro c hc hs x hx
    rw [List.length_cons] at hc
    simp only [List.map_cons, ltns, List.flatten_cons] at hx
    rcases List.mem_append.1 hx with h | h
    · obtain ⟨i, hi, rfl⟩ := List.mem_map.1 h
      have hi := List.mem_range'_1.1 hi
      have := hs s (by simp)
      have h1 : i * n ≤ M * n := Nat.mul_le_mul_right n (by omega)
      rw [Nat.add_mul] at hM
      refine ⟨0, i, s, by simp, hi.1, hi.2, ?_⟩
      rw [mul64_eq (by omega), add64_eq (by omega)]
      rfl
    · obtain ⟨j, i, s', h1, h2, h3, h4⟩ := ih (c + 1) (by omega) (fun t ht => hs t (by simp [ht])) x h
      exact ⟨j + 1, i, s', by simpa using h1, h2, h3, by omega⟩

theorem ltns_nodup (n M : Nat) (hM : (M + 1) * n < 2 ^ 64) (segs : List (Nat × Nat)) : ∀ c, c + segs.length ≤ n →
    (∀ s ∈ segs, s.1 + s.2 ≤ M) → (ltns n c (segs.map fun s => List.range' s.1 s.2)).flatten.Nodup := by
  induction segs with
  | nil => intro c _ _; simp [ltns]
  | cons s segs ih =>
    intro c hc hs
    have hc' := hc
    rw [List.length_cons] at hc
    simp only [List.map_cons, ltns, List.flatten_cons]
    have hval : ∀ i, i ∈ List.range' s.1 s.2 → add64 (mul64 i n) c = i * n + c := by
      intro i hi
      have hi := List.mem_range'_1.1 hi
      have := hs s (by simp)
      have h1 : i * n ≤ M * n := Nat.mul_le_mul_right n (by omega)
      rw [Nat.add_mul] at hM
      rw [mul64_eq (by omega), add64_eq (by omega)]
    refine List.nodup_append.2 ⟨?_, ih _ (by omega) (fun t ht => hs t (by simp [ht])), ?_⟩
    · rw [List.map_congr_left hval]
      refine List.Nodup.map ?_ (List.nodup_range' (step := 1))
      intro a b hab
      exact Nat.eq_of_mul_eq_mul_right (by omega : 0 < n) (by simpa using hab)
    · intro a ha b hb hab
      obtain ⟨i, hi, rfl⟩ := List.mem_map.1 ha
      rw [hval i hi] at hab
      obtain ⟨j, i', s', h1, _, _, h4⟩ := mem_ltns n M hM segs (c + 1) (by omega) (fun t ht => hs t (by simp [ht])) b hb
      obtain ⟨hj, _⟩ := List.getElem?_eq_some_iff.1 h1
      have e1 : (i * n + c) % n = c := by rw [Nat.mul_comm, Nat.mul_add_mod, Nat.mod_eq_of_lt (by omega)]
      have e2 : b % n = c + 1 + j := by rw [h4, Nat.mul_comm, Nat.mul_add_mod, Nat.mod_eq_of_lt (by omega)]
      rw [hab, e2] at e1
      omega

/-- Local trace numbers are distinct over all processes. -/
theorem ltns_all {P : Nat} (hP : 0 < P) (nts : List Nat) (hM : (nts.sum + 1) * nts.length < 2 ^ 64) :
    ((List.range P).flatMap fun r => (ltns nts.length 0 ((segsOf P nts r).map fun s => List.range' s.1 s.2)).flatten).Nodup := by
  have hb : ∀ r, r < P → ∀ s ∈ segsOf P nts r, s.1 + s.2 ≤ nts.sum := by
    intro r hr s hs
    unfold segsOf at hs
    obtain ⟨nt, hnt, rfl⟩ := List.mem_map.1 hs
    have h1 := off_le nt P (r + 1) hP hr
    rw [off_succ] at h1
    have := le_sum hnt
    simp only
    omega
  have hlen : ∀ r, 0 + (segsOf P nts r).length ≤ nts.length := by intro r; simp [segsOf]
  rw [List.nodup_flatMap]
  refine ⟨fun r hr => ltns_nodup _ _ hM _ 0 (hlen r) (hb r (List.mem_range.1 hr)), ?_⟩
  have hlt : (List.range P).Pairwise fun r r' => r < r' ∧ r' < P := by
    refine List.Pairwise.imp_of_mem (fun _ hb h => ⟨h, List.mem_range.1 hb⟩) List.pairwise_lt_range
  refine hlt.imp ?_
  rintro r r' ⟨hrr, hr'⟩ x hx hx'
  obtain ⟨j, i, s, h1, _, h3, h4⟩ := mem_ltns _ _ hM _ 0 (hlen r) (hb r (by omega)) x hx
  obtain ⟨j', i', s', h1', h2', _, h4'⟩ := mem_ltns _ _ hM _ 0 (hlen r') (hb r' hr') x hx'
  obtain ⟨hj, hs⟩ := List.getElem?_eq_some_iff.1 h1
  obtain ⟨hj', hs'⟩ := List.getElem?_eq_some_iff.1 h1'
  have hn := hlen r
  have hn' := hlen r'
  have m1 : x % nts.length = j := by rw [h4, Nat.mul_comm, Nat.mul_add_mod, Nat.mod_eq_of_lt (by omega)]; omega
  have m2 : x % nts.length = j' := by rw [h4', Nat.mul_comm, Nat.mul_add_mod, Nat.mod_eq_of_lt (by omega)]; omega
  have hjj : j = j' := by omega
  subst hjj
  have hii : i = i' := by
    have : i * nts.length = i' * nts.length := by omega
    exact Nat.eq_of_mul_eq_mul_right (by omega) this
  subst hii
  simp only [segsOf, List.getElem_map] at hs hs'
  have hm := off_mono nts[j] P (show r + 1 ≤ r' by omega)
  rw [off_succ] at hm
  rw [← hs] at h3
  rw [← hs'] at h2'
  simp only at h3 h2'
  omega

theorem parts_numbered (P : Nat) (hP : 0 < P) (nts : List Nat) (hN : nts.sum < 2 ^ 63)
    (hM : (nts.sum + 1) * nts.length < 2 ^ 63)
    (lst : Nat → List (List Nat)) (hl : ∀ r, r < P → shares P r nts = .ok (lst r))
    (parts : List (List Rec))
    (hg : parts.map (fun p => p.map Rec.gtn) = allGtns 0 ((List.range P).map lst))
    (hltn : parts.map (fun p => p.map fun a => a.tr.ltn) = (List.range P).map fun r =>
      (ltns nts.length 0 (lst r)).flatten.map Int.ofNat)
    (hc : P = 1 ∨ ∀ a ∈ nts, ∀ b ∈ nts, a = b) :
    (parts.flatten.map Rec.gtn).Pairwise (· < ·) ∧
      ∀ a ∈ parts.flatten, ∀ b ∈ parts.flatten, a.tr.ltn = b.tr.ltn → a = b := by
  have hlst : (List.range P).map lst = (List.range P).map fun r => (segsOf P nts r).map fun s => List.range' s.1 s.2 := by
    apply List.map_congr_left
    intro r hr
    have hr := List.mem_range.1 hr
    have := hl r hr
    rw [shares_eq hP hr nts (by omega)] at this
    injection this with this
    exact this.symm
  have hflat : parts.flatten.map Rec.gtn = numbers 0 ((List.range P).flatMap (segsOf P nts)) := by
    have := congrArg List.flatten hg
    rw [hlst, allGtns_eq nts.sum (segsOf P nts)] at this
    · rw [← this, List.map_flatten]
    · intro r hr s hs'
      unfold segsOf at hs'
      obtain ⟨nt, hnt, rfl⟩ := List.mem_map.1 hs'
      have h1 := off_le nt P (r + 1) hP (List.mem_range.1 hr)
      rw [off_succ] at h1
      have h2 := le_sum hnt
      simp only
      omega
    · rw [segs_sum hP]; omega
  have hinc : (parts.flatten.map Rec.gtn).Pairwise (· < ·) := by
    rw [hflat]
    exact numbers_increase 0 _ (segs_mono hP nts hc)
  have hltn' : ∀ a ∈ parts.flatten, ∀ b ∈ parts.flatten, a.tr.ltn = b.tr.ltn → a = b := by
    have hnd : (parts.flatten.map fun a => a.tr.ltn).Nodup := by
      have h1 := congrArg List.flatten hltn
      rw [← List.map_flatten] at h1
      have h0 : (List.range P).map (fun r => (ltns nts.length 0 (lst r)).flatten.map Int.ofNat) =
          ((List.range P).map fun r => (ltns nts.length 0 ((segsOf P nts r).map fun s =>
            List.range' s.1 s.2)).flatten).map (List.map Int.ofNat) := by
        rw [List.map_map]
        apply List.map_congr_left
        intro r hr
        have h2 := hl r (List.mem_range.1 hr)
        rw [shares_eq hP (List.mem_range.1 hr) nts (by omega)] at h2
        injection h2 with h2
        simp only [Function.comp, h2]
      rw [h1, h0, ← List.map_flatten, ← List.flatMap_def]
      exact List.Nodup.map (fun _ _ h => Int.ofNat.inj h) (ltns_all hP nts (by omega))
    exact fun a ha b hb hab => List.inj_on_of_nodup_map hnd ha hb hab
  exact ⟨hinc, hltn'⟩

/-- Traces with different numbers are totally ordered by every comparison. -/
theorem parts_total (o : OffFn) (ty : SortType) {l : List Rec}
    (hltn : ∀ a ∈ l, ∀ b ∈ l, a.tr.ltn = b.tr.ltn → a = b) : TotalOn (fun a b : Rec => getComp o ty a.tr b.tr) l := by
  obtain ⟨c1, c2, c3⟩ := C26_strict_total o ty
  refine ⟨fun a _ => c1 a.tr, fun a _ b _ d _ => c2 a.tr b.tr d.tr, ?_⟩
  intro a ha b hb hne
  have : a.tr.ltn ≠ b.tr.ltn := fun he => hne (hltn a ha b hb he)
  rcases c3 a.tr b.tr this with h | h
  · exact Or.inl h.1
  · exact Or.inr h.2

theorem parts_keys {l : List Rec} (hinc : (l.map Rec.gtn).Pairwise (· < ·)) :
    ∀ a ∈ l, ∀ b ∈ l, a.gtn = b.gtn → a = b := by
  have hinc' := List.pairwise_map.1 hinc
  intro a ha b hb hab
  by_contra hne
  exact List.Pairwise.forall_of_forall_of_flip (l := l) (R := fun a b => a ≠ b → a.gtn ≠ b.gtn)
    (fun _ _ h => absurd rfl h) (hinc'.imp fun h _ => by omega) (hinc'.imp fun h _ => by omega) ha hb hne hab

/-- C32, kept part. Sorting a group of files over `P` processes: the traces of each process are its shares of the
files, numbered as the cache does; local trace numbers are distinct. If there is one process, or all files have
the same number of traces (in particular a single file), and every process has at least four traces when there are
several (three when there is one), the sort ends and the positions returned give each trace its place in the sorted order of all traces.
What is missing: files of different sizes on several processes (`C32_sizes_refuted`), few traces
(`C32_small_refuted`, `C27_small_refuted`). -/
theorem C32_positions_partial (o : OffFn) (ty : SortType) (srt : List Rec → List Rec)
    (hs : IsSort (fun a b => getComp o ty a.tr b.tr) srt) (srtp : List (Nat × Nat) → List (Nat × Nat))
    (hsp : IsSort pairLt srtp) (P : Nat) (hP : 0 < P) (nts : List Nat) (hN : nts.sum < 2 ^ 63) (hM : (nts.sum + 1) * nts.length < 2 ^ 63)
    (lst : Nat → List (List Nat)) (hl : ∀ r, r < P → shares P r nts = .ok (lst r))
    (parts : List (List Rec)) (hlen : parts.length = P)
    (hg : parts.map (fun p => p.map Rec.gtn) = allGtns 0 ((List.range P).map lst))
    (hltn : parts.map (fun p => p.map fun a => a.tr.ltn) = (List.range P).map fun r =>
      (ltns nts.length 0 (lst r)).flatten.map Int.ofNat)
    (hc : P = 1 ∨ ∀ a ∈ nts, ∀ b ∈ nts, a = b) (h3 : ∀ p ∈ parts, 3 ≤ p.length) (h4 : P ≤ 1 ∨ ∀ p ∈ parts, 4 ≤ p.length)
    (d : Rec) :
    ∃ n out L, (∀ fuel, n ≤ fuel → sortTraces { srt := srt, msg := id, key := Rec.gtn, dflt := d } srtp Rec.gtn true
        fuel parts = some (out, L) ∧
        setSort (fun ps => (sortTraces { srt := srt, msg := id, key := Rec.gtn, dflt := d } srtp Rec.gtn true
          fuel ps).map Prod.snd) parts = some L) ∧
      out.flatten.Pairwise (fun a b => getComp o ty b.tr a.tr = false) ∧ out.flatten.Perm parts.flatten ∧
      L.flatten.Perm (List.range parts.flatten.length) ∧
      (∀ k p : Nat, L.flatten[k]? = some p → out.flatten[p]? = parts.flatten[k]?) ∧
      L.map List.length = parts.map List.length := by
  obtain ⟨hinc, hltn'⟩ := parts_numbered P hP nts hN hM lst hl parts hg hltn hc
  have ht := parts_total o ty hltn'
  have hk := parts_keys hinc
  obtain ⟨n, out, L, h, hrest⟩ := C29_positions_partial { srt := srt, msg := id, key := Rec.gtn, dflt := d } _ hs
    (fun _ => rfl) srtp hsp parts ht hk Rec.gtn hinc (by rw [hlen]; exact h4)
  refine ⟨n, out, L, fun fuel hf => ⟨h fuel hf, ?_⟩, hrest⟩
  unfold setSort
  rw [if_neg (by simpa using h3)]
  simp only [h fuel hf, Option.map_some]

/-- Two files of eight traces on two processes: the shares and the numbers. -/
example : shares 2 1 [8, 8] = .ok [[4, 5, 6, 7], [4, 5, 6, 7]] ∧
    allGtns 0 [[[0, 1, 2, 3], [0, 1, 2, 3]], [[4, 5, 6, 7], [4, 5, 6, 7]]]
      = [[0, 1, 2, 3, 4, 5, 6, 7], [12, 13, 14, 15, 16, 17, 18, 19]] := by decide +kernel

/-- The list of positions is handed to the files of a process one after the other, none lost. -/
theorem C32_deal (ns : List Nat) (l : List Nat) (h : ns.sum = l.length) :
    ∃ D, deal ns l = .ok D ∧ D.flatten = l ∧ D.map List.length = ns := by
  induction ns generalizing l with
  | nil =>
    have : l = [] := by simpa using h.symm
    subst this
    exact ⟨[], rfl, rfl, rfl⟩
  | cons n ns ih =>
    rw [List.sum_cons] at h
    obtain ⟨D, h0, h1, h2⟩ := ih (l.drop n) (by rw [List.length_drop]; omega)
    refine ⟨l.take n :: D, ?_, ?_, ?_⟩
    · unfold deal
      rw [if_neg (by omega), h0, Res.ok_bind]
    · simp only [List.flatten_cons, h1, List.take_append_drop]
    · simp only [List.map_cons, h2, List.length_take]
      rw [Nat.min_eq_left (by omega)]

theorem deal_short (ns : List Nat) (l : List Nat) (h : l.length < ns.sum) : deal ns l = .ub := by
  induction ns generalizing l with
  | nil => simp at h
  | cons n ns ih =>
    unfold deal
    rw [List.sum_cons] at h
    by_cases hn : l.length < n
    · rw [if_pos hn]
    · rw [if_neg hn, ih (l.drop n) (by rw [List.length_drop]; omega), Res.ub_bind]

/-- C32 fails: as soon as one process has fewer than three traces of a group, every process that has any reads
positions from an empty list, whatever the files (`ns` are the numbers of traces that the process has of them). -/
theorem C32_small_refuted {α : Type} (srt : List (List α) → Option (List (List Nat))) (parts : List (List α))
    (hs : ∃ p ∈ parts, p.length < 3) : ∃ L, setSort srt parts = some L ∧ L.length = parts.length ∧
      ∀ (r : Nat) (p : List α) (l : List Nat), parts[r]? = some p → L[r]? = some l → p ≠ [] →
        ∀ ns : List Nat, ns.sum = p.length → deal ns l = .ub := by
  refine ⟨parts.map fun _ => [], ?_, by simp, ?_⟩
  · unfold setSort
    rw [if_pos (by simpa using hs)]
  · intro r p l hp hl hne ns hns
    have hl0 : l = [] := by
      rw [List.getElem?_map, hp] at hl
      exact (Option.some.inj hl).symm
    subst hl0
    have := List.length_pos_iff.2 hne
    exact deal_short ns [] (by simpa [hns] using this)

/-- Two processes, one of them with two traces. -/
example : ∃ p ∈ [[1, 2, 3], [4, 5]], p.length < 3 := by decide

example : [3, 0, 2].sum = [5, 1, 0, 9, 4].length := by decide

/-- C32 fails for files of different sizes on several processes: with 16 and 8 traces on two processes two traces of
the second process get each of the numbers 24 to 27, and traces that are in order already (by value) get output
positions that are not their places. A trace is a value and its number. -/
theorem C32_sizes_refuted : ¬ ∀ (P : Nat) (nts : List Nat) (lst : Nat → List (List Nat)) (parts : List (List (Nat × Nat)))
    (fuel : Nat) (out : List (List (Nat × Nat))) (L : List (List Nat)), 0 < P → nts.sum < 2 ^ 63 →
    (∀ r, r < P → shares P r nts = .ok (lst r)) → parts.length = P →
    parts.map (fun p => p.map Prod.snd) = allGtns 0 ((List.range P).map lst) → (∀ p ∈ parts, 4 ≤ p.length) →
    sortTraces { srt := insSort (fun a b => decide (a.1 < b.1)), msg := id, key := Prod.snd, dflt := (0, 0) }
      (insSort pairLt) Prod.snd true fuel parts = some (out, L) →
    ∀ k p : Nat, L.flatten[k]? = some p → out.flatten[p]? = parts.flatten[k]? := by
  intro h
  let l0 : List (List Nat) := [[0, 1, 2, 3, 4, 5, 6, 7], [0, 1, 2, 3]]
  let l1 : List (List Nat) := [[8, 9, 10, 11, 12, 13, 14, 15], [4, 5, 6, 7]]
  let parts : List (List (Nat × Nat)) :=
    [(List.range 12).map fun i => (i, i),
     ((List.range 8).map fun i => (12 + i, 20 + i)) ++ ((List.range 4).map fun i => (20 + i, 24 + i))]
  have := h 2 [16, 8] (fun r => if r = 0 then l0 else l1) parts 5 parts
    [[0, 1, 2, 3, 4, 5, 6, 7, 8, 9, 10, 11], [12, 13, 14, 15, 16, 20, 17, 21, 18, 22, 19, 23]]
    (by decide) (by decide) (by
      intro r hr
      have : r = 0 ∨ r = 1 := by omega
      rcases this with rfl | rfl <;> decide +kernel) (by decide) (by decide +kernel) (by decide) (by decide +kernel) 17 20
    (by decide)
  revert this
  decide +kernel

end Verif.Flow
