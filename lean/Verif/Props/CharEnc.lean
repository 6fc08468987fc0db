import Verif.CharEnc.Lemmas
/-!
# C06, C07, C25: character conversion and the textual header
-/
namespace Verif.CharEnc

/-! ## C06 -/

/-- **C06**: both directions of the conversion agree with every table pair, so
each is the inverse of the other there. -/
theorem C06_table_pairs (a e : Nat) (h : (a, e) ∈ table) :
    toEBCDIC a = e ∧ toASCII e = a ∧ toASCII (toEBCDIC a) = a ∧ toEBCDIC (toASCII e) = e := by
  have h1 := toEBCDIC_mem (a, e) h
  have h2 := toASCII_mem (a, e) h
  simp only at h1 h2
  exact ⟨h1, h2, by rw [h1, h2], by rw [h2, h1]⟩

example : ((0x41, 0xC1) : Nat × Nat) ∈ table := by decide

/-- **C06**: different characters of the table convert to different characters. -/
theorem C06_injective (p q : Nat × Nat) (hp : p ∈ table) (hq : q ∈ table) (hne : p ≠ q) :
    p.1 ≠ q.1 ∧ p.2 ≠ q.2 ∧ toEBCDIC p.1 ≠ toEBCDIC q.1 ∧ toASCII p.2 ≠ toASCII q.2 := by
  have a1 := toEBCDIC_mem p hp; have a2 := toASCII_mem p hp
  have b1 := toEBCDIC_mem q hq; have b2 := toASCII_mem q hq
  have k1 : p.1 ≠ q.1 := fun h => hne (Prod.ext h (by rw [← a1, ← b1, h]))
  have k2 : p.2 ≠ q.2 := fun h => hne (Prod.ext (by rw [← a2, ← b2, h]) h)
  exact ⟨k1, k2, by rw [a1, b1]; exact k2, by rw [a2, b2]; exact k1⟩

example : ((0x41, 0xC1) : Nat × Nat) ≠ (0x42, 0xC2) ∧ ((0x42, 0xC2) : Nat × Nat) ∈ table := by decide

/-- **C06**: a text built of table characters survives conversion there and
back, in both directions, at unchanged length. -/
theorem C06_text_roundtrip (t : List Nat) :
    (t.map toEBCDIC).length = t.length ∧ (t.map toASCII).length = t.length ∧
    ((∀ c ∈ t, c ∈ table.map Prod.fst) → (t.map toEBCDIC).map toASCII = t) ∧
    ((∀ c ∈ t, c ∈ table.map Prod.snd) → (t.map toASCII).map toEBCDIC = t) := by
  refine ⟨by simp, by simp, ?_, ?_⟩
  · intro h
    rw [List.map_map]
    conv => rhs; rw [← List.map_id t]
    apply List.map_congr_left
    intro c hc
    obtain ⟨p, hp, rfl⟩ := List.mem_map.mp (h c hc)
    exact (C06_table_pairs p.1 p.2 hp).2.2.1
  · intro h
    rw [List.map_map]
    conv => rhs; rw [← List.map_id t]
    apply List.map_congr_left
    intro c hc
    obtain ⟨p, hp, rfl⟩ := List.mem_map.mp (h c hc)
    exact (C06_table_pairs p.1 p.2 hp).2.2.2

example : ∀ c ∈ [0x43, 0x30, 0x31, 0x20], c ∈ table.map Prod.fst := by decide

/-! ## C07 -/

/-- **C07** refuted: no ASCII byte missing from the table converts to the EBCDIC
substitute, and no EBCDIC byte missing from the table except 0x3E converts to
the ASCII substitute. -/
theorem C07_substitute_refuted :
    (∀ b, b < 256 → b ∉ table.map Prod.fst → toEBCDIC b ≠ 0x3F) ∧
    (∀ b, b < 256 → b ∉ table.map Prod.snd → b ≠ 0x3E → toASCII b ≠ 0x1A) :=
  ⟨fun b hb => (absent_table b (List.mem_range.mpr hb)).1,
   fun b hb => (absent_table b (List.mem_range.mpr hb)).2⟩

/-- `[`, `]`, `^` and 0x80..0xFE are missing on the ASCII side. -/
example : 0x5B ∉ table.map Prod.fst ∧ 0x80 ∉ table.map Prod.fst ∧ 0x41 ∉ table.map Prod.snd := by
  decide

/-- **C07** (part): what does happen to a missing byte: it converts as the
smallest table character above it.  Missing from the full statement: the
substitute character, which only EBCDIC 0x3E receives. -/
theorem C07_next_entry_partial (b : Nat) (p : Nat × Nat) (hp : p ∈ table) :
    (b ∉ table.map Prod.fst → b ≤ p.1 → (∀ q ∈ table, b ≤ q.1 → p.1 ≤ q.1) → toEBCDIC b = p.2) ∧
    (b ∉ table.map Prod.snd → b ≤ p.2 → (∀ q ∈ table, b ≤ q.2 → p.2 ≤ q.2) → toASCII b = p.1) := by
  have key : ∀ (k : Nat × Nat → Nat) (l : List (Nat × Nat)),
      l.Pairwise (fun x y => k x ≤ k y) → (l.map k).Nodup → p ∈ l → b ≤ k p →
      (∀ q ∈ l, b ≤ k q → k p ≤ k q) → lowerBound k l b = some p := by
    intro k l hs hn hp hbp hmin
    have := lowerBound_mem k l hs hn p hp
    rw [← this]
    unfold lowerBound
    clear this hn hs hp
    induction l with
    | nil => rfl
    | cons q qs ih =>
      have h1 := hmin q List.mem_cons_self
      by_cases hq : b ≤ k q
      · have := h1 hq
        rw [List.find?_cons_of_pos (by simp; omega), List.find?_cons_of_pos (by simp; omega)]
      · rw [List.find?_cons_of_neg (by simp; omega), List.find?_cons_of_neg (by simp; omega)]
        exact ih fun q hq => hmin q (List.mem_cons_of_mem _ hq)
  constructor
  · intro _ h1 h2
    unfold toEBCDIC
    rw [key Prod.fst asciiSorted (sortBy_sorted _ _)
      (((sortBy_perm Prod.fst table).map _).nodup_iff.mpr ascii_keys)
      ((sortBy_perm Prod.fst table).mem_iff.mpr hp) h1
      (fun q hq => h2 q ((sortBy_perm Prod.fst table).mem_iff.mp hq))]
  · intro _ h1 h2
    unfold toASCII
    rw [key Prod.snd ebcdicSorted (sortBy_sorted _ _)
      (((sortBy_perm Prod.snd table).map _).nodup_iff.mpr ebcdic_keys)
      ((sortBy_perm Prod.snd table).mem_iff.mpr hp) h1
      (fun q hq => h2 q ((sortBy_perm Prod.snd table).mem_iff.mp hq))]

/-- `[` (0x5B) becomes what `\` (0x5C) becomes; EBCDIC 0x3E becomes the substitute. -/
example : toEBCDIC 0x5B = 0xE0 ∧ toASCII 0x3E = 0x1A := by decide +kernel

/-! ## C25 -/

/-- The specification: a text of at most 3200 characters padded with NULs. -/
def padded (t : List Nat) : List Nat := t ++ List.replicate (3200 - t.length) 0

/-- What the file holds after any history of `writeText` calls, the last with `t`. -/
def fileAfter (history : List (List Nat)) (t : List Nat) : List Nat :=
  headerText (writeText (history.foldl writeText []) t)

/-- **C25**: after any history the header bytes of the file are the last text,
padded. -/
theorem C25_header_bytes (history : List (List Nat)) (t : List Nat) (ht : t.length ≤ 3200) :
    fileAfter history t = padded t := by
  have inv : ∀ (h : List (List Nat)) (s : List Nat), (s = [] ∨ s.length = 3200) →
      (h.foldl writeText s = [] ∨ (h.foldl writeText s).length = 3200) := by
    intro h
    induction h with
    | nil => intro s hs; exact hs
    | cons x xs ih =>
      intro s hs
      apply ih
      unfold writeText
      split
      · right; simp [resize, textSz]; omega
      · exact hs
  unfold fileAfter
  have hi := inv history [] (Or.inl rfl)
  generalize history.foldl writeText [] = s at hi
  unfold writeText headerText padded textSz
  split
  · unfold resize
    rw [List.take_of_length_le ht]
    have : (t ++ List.replicate (3200 - t.length) 0).length = 3200 := by simp; omega
    rw [this]; simp
  · rename_i h
    have h : s = t := Classical.byContradiction h
    rw [h]

example : ([0x43, 0x31] : List Nat).length ≤ 3200 := by decide

/-- **C25** (part): an ASCII text of printable characters containing at least one
character below 0x40 (a space, a digit or punctuation) is read back as written,
padded.  Missing from the full statement: texts without such a character, which
are misread (`C25_letters_refuted`). -/
theorem C25_ascii_partial (history : List (List Nat)) (t : List Nat) (ht : t.length ≤ 3200)
    (hp : ∀ c ∈ t, 0x20 ≤ c ∧ c ≤ 0x7E) (hw : ∃ c ∈ t, c < 0x40) :
    readText (fileAfter history t) = padded t := by
  rw [C25_header_bytes history t ht]
  have z1 : ∀ n, (List.replicate n 0).countP printableASCII = 0 := by
    intro n; rw [List.countP_eq_zero]; intro a ha; rw [List.eq_of_mem_replicate ha]; decide
  have z2 : ∀ n, (List.replicate n 0).countP printableEBCDIC = 0 := by
    intro n; rw [List.countP_eq_zero]; intro a ha; rw [List.eq_of_mem_replicate ha]
    simp [(ebcdic_printable_table 0 (by simp)).1 (by omega)]
  have h1 : (padded t).countP printableASCII = t.length := by
    unfold padded
    rw [List.countP_append, z1, Nat.add_zero, List.countP_eq_length]
    intro a ha
    have := hp a ha
    simp [printableASCII]; omega
  have h2 : (padded t).countP printableEBCDIC < t.length := by
    unfold padded
    rw [List.countP_append, z2, Nat.add_zero]
    obtain ⟨c, hc, hlt⟩ := hw
    refine Nat.lt_of_le_of_ne List.countP_le_length ?_
    intro heq
    have := List.countP_eq_length.mp heq c hc
    rw [(ebcdic_printable_table c (by simp; omega)).1 hlt] at this
    exact absurd this (by simp)
  unfold readText
  rw [if_pos (by omega)]

example : (∀ c ∈ [0x43, 0x20, 0x31], 0x20 ≤ c ∧ c ≤ 0x7E) ∧ ∃ c ∈ [0x43, 0x20, 0x31], c < 0x40 := by
  decide

/-- **C25** refuted: every non-empty text of printable characters from 0x40 up
(letters and `@[\]^_{|}~` and the backquote), for example "HELLO", is taken for
EBCDIC and every one of its characters is changed. -/
theorem C25_letters_refuted (history : List (List Nat)) (t : List Nat) (ht : t.length ≤ 3200)
    (hp : ∀ c ∈ t, 0x40 ≤ c ∧ c ≤ 0x7E) :
    readText (fileAfter history t) = (padded t).map toASCII ∧
    ∀ c ∈ t, toASCII c ≠ c := by
  refine ⟨?_, ?_⟩
  · rw [C25_header_bytes history t ht]
    unfold readText
    rw [if_neg]
    have hle : (padded t).countP printableASCII ≤ (padded t).countP printableEBCDIC := by
      apply List.countP_mono_left
      intro a ha h
      unfold padded at ha
      rcases List.mem_append.mp ha with ha | ha
      · have := hp a ha
        exact (ebcdic_printable_table a (by simp; omega)).2 this.1 this.2
      · rw [List.eq_of_mem_replicate ha] at h; exact absurd h (by decide)
    omega
  · intro c hc
    have := hp c hc
    exact letters_table c (by simp; omega) this.1 this.2

/-- "HELLO" -/
example : (∀ c ∈ [0x48, 0x45, 0x4C, 0x4C, 0x4F], 0x40 ≤ c ∧ c ≤ 0x7E) := by decide

/-- **C25**: a header with at least as many EBCDIC-printable bytes as
ASCII-printable ones is returned converted to ASCII; in particular any header
consisting of EBCDIC-printable characters. -/
theorem C25_ebcdic (h : List Nat)
    (hc : h.countP printableASCII ≤ h.countP printableEBCDIC ∨ ∀ c ∈ h, printableEBCDIC c = true) :
    readText h = h.map toASCII := by
  unfold readText
  rw [if_neg]
  rcases hc with hc | hc
  · omega
  · have := List.countP_eq_length.mpr hc
    have h2 : h.countP printableASCII ≤ h.length := List.countP_le_length
    omega

/-- "C 1 CLIENT" in EBCDIC. -/
example : ∀ c ∈ [0xC3, 0x40, 0xF1, 0x40, 0xC3, 0xD3, 0xC9, 0xC5, 0xD5, 0xE3],
    printableEBCDIC c = true := by decide +kernel

end Verif.CharEnc
