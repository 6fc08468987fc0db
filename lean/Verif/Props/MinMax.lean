import Verif.Ops.MinMax
import Mathlib.Tactic.NormNum

/-!
C37 (minimum and maximum over processes) and C38 (over the files of a set).
-/

namespace Verif.Ops

variable {A V : Type} [LinearOrder V]

/-- A comparison as `std::minmax_element` asks for. -/
structure Weak (lt : A → A → Bool) : Prop where
  asymm : ∀ a b, lt a b = true → lt b a = false
  negtrans : ∀ a b c, lt a b = false → lt b c = false → lt a c = false

theorem bestMin_spec {lt : A → A → Bool} (h : Weak lt) : ∀ (xs pre : List A) (b : A) (bi : Nat), pre[bi]? = some b →
    (∀ x ∈ pre, lt x b = false) → (∀ (i : Nat) (x : A), i < bi → pre[i]? = some x → lt b x = true) →
    ∃ j y, best lt b bi pre.length xs = (j, y) ∧ (pre ++ xs)[j]? = some y ∧ (∀ x ∈ pre ++ xs, lt x y = false) ∧
      ∀ (i : Nat) (x : A), i < j → (pre ++ xs)[i]? = some x → lt y x = true := by
  intro xs
  induction xs with
  | nil =>
    intro pre b bi h1 h2 h3
    exact ⟨bi, b, rfl, by simpa using h1, by simpa using h2, by simpa using h3⟩
  | cons x xs ih =>
    intro pre b bi h1 h2 h3
    have hlen : (pre ++ [x]).length = pre.length + 1 := by simp
    have hbi := (List.getElem?_eq_some_iff.1 h1).1
    unfold best
    cases hx : lt x b with
    | true =>
      obtain ⟨j, y, e, r⟩ := ih (pre ++ [x]) x pre.length (by simp) (by
          intro z hz
          rcases List.mem_append.1 hz with hz | hz
          · have hzb := h2 z hz
            have hbx := h.asymm x b hx
            exact h.negtrans z b x hzb hbx
          · rw [List.mem_singleton.1 hz]
            cases hxx : lt x x with
            | false => rfl
            | true => have h' := h.asymm x x hxx; rw [hxx] at h'; exact h') (by
          intro i z hi hz
          rw [List.getElem?_append_left hi] at hz
          have hzb := h2 z (List.mem_of_getElem? hz)
          cases hxz : lt x z with
          | true => rfl
          | false =>
            have := h.negtrans x z b hxz hzb
            rw [hx] at this
            exact this.symm)
      rw [hlen] at e
      exact ⟨j, y, by simpa using e, by simpa using r⟩
    | false =>
      obtain ⟨j, y, e, r⟩ := ih (pre ++ [x]) b bi (by rw [List.getElem?_append_left hbi]; exact h1) (by
          intro z hz
          rcases List.mem_append.1 hz with hz | hz
          · exact h2 z hz
          · rw [List.mem_singleton.1 hz]; exact hx) (by
          intro i z hi hz
          rw [List.getElem?_append_left (by omega)] at hz
          exact h3 i z hi hz)
      rw [hlen] at e
      exact ⟨j, y, by simpa using e, by simpa using r⟩

theorem bestMax_spec {lt : A → A → Bool} (h : Weak lt) : ∀ (xs pre : List A) (b : A) (bi : Nat), pre[bi]? = some b →
    (∀ x ∈ pre, lt b x = false) → (∀ (i : Nat) (x : A), bi < i → pre[i]? = some x → lt x b = true) →
    ∃ j y, best (fun a b => !lt a b) b bi pre.length xs = (j, y) ∧ (pre ++ xs)[j]? = some y ∧
      (∀ x ∈ pre ++ xs, lt y x = false) ∧ ∀ (i : Nat) (x : A), j < i → (pre ++ xs)[i]? = some x → lt x y = true := by
  intro xs
  induction xs with
  | nil =>
    intro pre b bi h1 h2 h3
    exact ⟨bi, b, rfl, by simpa using h1, by simpa using h2, by simpa using h3⟩
  | cons x xs ih =>
    intro pre b bi h1 h2 h3
    have hlen : (pre ++ [x]).length = pre.length + 1 := by simp
    have hbi := (List.getElem?_eq_some_iff.1 h1).1
    unfold best
    cases hx : lt x b with
    | false =>
      obtain ⟨j, y, e, r⟩ := ih (pre ++ [x]) x pre.length (by simp) (by
          intro z hz
          rcases List.mem_append.1 hz with hz | hz
          · exact h.negtrans x b z hx (h2 z hz)
          · rw [List.mem_singleton.1 hz]
            cases hxx : lt x x with
            | false => rfl
            | true => have h' := h.asymm x x hxx; rw [hxx] at h'; exact h') (by
          intro i z hi hz
          rw [List.getElem?_eq_none (by rw [hlen]; omega)] at hz
          cases hz)
      rw [hlen] at e
      exact ⟨j, y, by simpa using e, by simpa using r⟩
    | true =>
      obtain ⟨j, y, e, r⟩ := ih (pre ++ [x]) b bi (by rw [List.getElem?_append_left hbi]; exact h1) (by
          intro z hz
          rcases List.mem_append.1 hz with hz | hz
          · exact h2 z hz
          · rw [List.mem_singleton.1 hz]; exact h.asymm x b hx) (by
          intro i z hi hz
          rcases Nat.lt_or_ge i pre.length with hi' | hi'
          · rw [List.getElem?_append_left hi'] at hz
            exact h3 i z hi hz
          · rw [List.getElem?_append_right hi'] at hz
            have : i - pre.length = 0 := by
              have := (List.getElem?_eq_some_iff.1 hz).1
              simpa using this
            rw [this] at hz
            simp only [List.getElem?_cons_zero, Option.some.injEq] at hz
            rw [← hz]; exact hx)
      rw [hlen] at e
      exact ⟨j, y, by simpa using e, by simpa using r⟩

theorem Weak.irrefl {lt : A → A → Bool} (h : Weak lt) (a : A) : lt a a = false := by
  cases hxx : lt a a with
  | false => rfl
  | true => have h' := h.asymm a a hxx; rw [hxx] at h'; exact h'

theorem firstMin_spec {lt : A → A → Bool} (h : Weak lt) (l : List A) (hl : l ≠ []) :
    ∃ j y, firstMin lt l = some (j, y) ∧ l[j]? = some y ∧ (∀ x ∈ l, lt x y = false) ∧
      ∀ (i : Nat) (x : A), i < j → l[i]? = some x → lt y x = true := by
  cases l with
  | nil => exact absurd rfl hl
  | cons a l =>
    obtain ⟨j, y, e, r⟩ := bestMin_spec h l [a] a 0 (by simp) (by simpa using h.irrefl a) (by intro i x hi; omega)
    exact ⟨j, y, congrArg some e, r⟩

theorem lastMax_spec {lt : A → A → Bool} (h : Weak lt) (l : List A) (hl : l ≠ []) :
    ∃ j y, lastMax lt l = some (j, y) ∧ l[j]? = some y ∧ (∀ x ∈ l, lt y x = false) ∧
      ∀ (i : Nat) (x : A), j < i → l[i]? = some x → lt x y = true := by
  cases l with
  | nil => exact absurd rfl hl
  | cons a l =>
    obtain ⟨j, y, e, r⟩ := bestMax_spec h l [a] a 0 (by simp) (by simpa using h.irrefl a) (by
      intro i x hi hx
      rw [List.getElem?_eq_none (by simp; omega)] at hx
      cases hx)
    exact ⟨j, y, congrArg some e, r⟩

theorem pairLess_weak (e1 e2 : A → V) : Weak (pairLess e1 e2) := by
  refine ⟨?_, ?_⟩
  · intro a b h
    unfold pairLess at *
    split at h
    · rename_i h1
      rw [if_neg (not_lt.2 (le_of_lt h1)), if_neg (fun h2 => absurd h2.1 (ne_of_gt h1))]
    · split at h
      · rename_i h1
        rw [if_neg (by rw [h1.1]; exact lt_irrefl _), if_neg (fun h2 => lt_asymm h1.2 h2.2)]
      · cases h
  · intro a b c hab hbc
    have key : ∀ x y : A, pairLess e1 e2 x y = false ↔ e1 y < e1 x ∨ (e1 x = e1 y ∧ e2 y ≤ e2 x) := by
      intro x y
      unfold pairLess
      rcases lt_trichotomy (e1 x) (e1 y) with h | h | h
      · rw [if_pos h]
        constructor
        · intro h'; cases h'
        · rintro (h' | h')
          · exact absurd h' (lt_asymm h)
          · exact absurd h'.1 (ne_of_lt h)
      · rw [if_neg (by rw [h]; exact lt_irrefl _)]
        by_cases h2 : e2 x < e2 y
        · rw [if_pos ⟨h, h2⟩]
          constructor
          · intro h'; cases h'
          · rintro (h' | h')
            · rw [h] at h'; exact absurd h' (lt_irrefl _)
            · exact absurd h2 (not_lt.2 h'.2)
        · rw [if_neg (fun h' => h2 h'.2)]
          exact ⟨fun _ => Or.inr ⟨h, not_lt.1 h2⟩, fun _ => rfl⟩
      · rw [if_neg (lt_asymm h), if_neg (fun h' => absurd h'.1 (ne_of_gt h))]
        exact ⟨fun _ => Or.inl h, fun _ => rfl⟩
    rw [key] at *
    rcases hab with h1 | h1 <;> rcases hbc with h2 | h2
    · exact Or.inl (lt_trans h2 h1)
    · rw [h2.1] at h1; exact Or.inl h1
    · rw [← h1.1] at h2; exact Or.inl h2
    · exact Or.inr ⟨h1.1.trans h2.1, le_trans h2.2 h1.2⟩

theorem pairLess_false {e1 e2 : A → V} {x y : A} (h : pairLess e1 e2 x y = false) :
    e1 y ≤ e1 x ∧ (e1 x = e1 y → e2 y ≤ e2 x) := by
  unfold pairLess at h
  split at h
  · cases h
  · rename_i h1
    split at h
    · cases h
    · rename_i h2
      exact ⟨not_lt.1 h1, fun he => not_lt.1 fun hl => h2 ⟨he, hl⟩⟩

theorem val_weak : Weak (fun a b : Elem V => decide (a.val < b.val)) := by
  refine ⟨?_, ?_⟩
  · intro a b h
    simp only [decide_eq_true_eq, decide_eq_false_iff_not] at *
    exact lt_asymm h
  · intro a b c h1 h2
    simp only [decide_eq_false_iff_not, not_lt] at *
    exact le_trans h2 h1

/-- What a process with traces sends. -/
theorem sends_spec (e1 e2 : A → V) (p : Nat × List A) (hp : p.2 ≠ []) (hb : p.1 + p.2.length ≤ 2 ^ 64) :
    ∃ (i j : Nat) (a b : A), sends e1 e2 p = [⟨e1 a, p.1 + i⟩, ⟨e1 b, p.1 + j⟩] ∧ p.2[i]? = some a ∧ p.2[j]? = some b ∧
      (∀ x ∈ p.2, e1 a ≤ e1 x ∧ (e1 x = e1 a → e2 a ≤ e2 x)) ∧
      (∀ x ∈ p.2, e1 x ≤ e1 b ∧ (e1 x = e1 b → e2 x ≤ e2 b)) := by
  obtain ⟨i, a, f1, f2, f3, _⟩ := firstMin_spec (pairLess_weak e1 e2) p.2 hp
  obtain ⟨j, b, l1, l2, l3, _⟩ := lastMax_spec (pairLess_weak e1 e2) p.2 hp
  have hi := (List.getElem?_eq_some_iff.1 f2).1
  have hj := (List.getElem?_eq_some_iff.1 l2).1
  refine ⟨i, j, a, b, ?_, f2, l2, fun x hx => pairLess_false (f3 x hx), ?_⟩
  · unfold sends
    rw [f1, l1]
    simp only
    rw [add64_eq (by omega), add64_eq (by omega)]
  · intro x hx
    have := pairLess_false (l3 x hx)
    exact ⟨this.1, fun he => this.2 he.symm⟩

theorem sends_empty (e1 e2 : A → V) (p : Nat × List A) (hp : p.2 = []) : sends e1 e2 p = [] := by
  unfold sends
  rw [hp]
  rfl

/-- Of the elements sent, one at an even place comes before its partner. -/
theorem flat_min (e1 e2 : A → V) (parts : List (Nat × List A)) (hb : ∀ p ∈ parts, p.1 + p.2.length ≤ 2 ^ 64) :
    ∀ (k : Nat) (e : Elem V), (parts.flatMap (sends e1 e2))[k]? = some e →
      (∀ (i : Nat) (x : Elem V), i < k → (parts.flatMap (sends e1 e2))[i]? = some x → e.val < x.val) →
      ∃ p ∈ parts, ∃ (i : Nat) (a : A), p.2[i]? = some a ∧ e = ⟨e1 a, p.1 + i⟩ ∧
        ∀ x ∈ p.2, e1 a ≤ e1 x ∧ (e1 x = e1 a → e2 a ≤ e2 x) := by
  induction parts with
  | nil => intro k e h; simp at h
  | cons p parts ih =>
    intro k e h hfirst
    have ih := ih fun q hq => hb q (by simp [hq])
    rw [List.flatMap_cons] at h hfirst
    by_cases hp : p.2 = []
    · rw [sends_empty e1 e2 p hp, List.nil_append] at h hfirst
      obtain ⟨q, hq, r⟩ := ih k e h hfirst
      exact ⟨q, by simp [hq], r⟩
    · obtain ⟨i, j, a, b, s1, s2, s3, s4, s5⟩ := sends_spec e1 e2 p hp (hb p (by simp))
      rw [s1] at h hfirst
      match k, h, hfirst with
      | 0, h, _ =>
        simp only [List.cons_append, List.getElem?_cons_zero, Option.some.injEq] at h
        exact ⟨p, by simp, i, a, s2, h.symm, s4⟩
      | 1, h, hfirst =>
        simp only [List.cons_append, List.getElem?_cons_succ, List.getElem?_cons_zero, Option.some.injEq] at h
        have := hfirst 0 ⟨e1 a, p.1 + i⟩ (by omega) (by simp)
        rw [← h] at this
        exact absurd (s4 b (List.mem_of_getElem? s3)).1 (not_le.2 this)
      | k + 2, h, hfirst =>
        obtain ⟨q, hq, r⟩ := ih k e (by simpa using h) (by
          intro m x hm hx
          exact hfirst (m + 2) x (by omega) (by simpa using hx))
        exact ⟨q, by simp [hq], r⟩

theorem flat_max (e1 e2 : A → V) (parts : List (Nat × List A)) (hb : ∀ p ∈ parts, p.1 + p.2.length ≤ 2 ^ 64) :
    ∀ (k : Nat) (e : Elem V), (parts.flatMap (sends e1 e2))[k]? = some e →
      (∀ (i : Nat) (x : Elem V), k < i → (parts.flatMap (sends e1 e2))[i]? = some x → x.val < e.val) →
      ∃ p ∈ parts, ∃ (i : Nat) (a : A), p.2[i]? = some a ∧ e = ⟨e1 a, p.1 + i⟩ ∧
        ∀ x ∈ p.2, e1 x ≤ e1 a ∧ (e1 x = e1 a → e2 x ≤ e2 a) := by
  induction parts with
  | nil => intro k e h; simp at h
  | cons p parts ih =>
    intro k e h hlast
    have ih := ih fun q hq => hb q (by simp [hq])
    rw [List.flatMap_cons] at h hlast
    by_cases hp : p.2 = []
    · rw [sends_empty e1 e2 p hp, List.nil_append] at h hlast
      obtain ⟨q, hq, r⟩ := ih k e h hlast
      exact ⟨q, by simp [hq], r⟩
    · obtain ⟨i, j, a, b, s1, s2, s3, s4, s5⟩ := sends_spec e1 e2 p hp (hb p (by simp))
      rw [s1] at h hlast
      match k, h, hlast with
      | 0, h, hlast =>
        simp only [List.cons_append, List.getElem?_cons_zero, Option.some.injEq] at h
        have := hlast 1 ⟨e1 b, p.1 + j⟩ (by omega) (by simp)
        rw [← h] at this
        exact absurd (s4 b (List.mem_of_getElem? s3)).1 (not_le.2 this)
      | 1, h, _ =>
        simp only [List.cons_append, List.getElem?_cons_succ, List.getElem?_cons_zero, Option.some.injEq] at h
        exact ⟨p, by simp, j, b, s3, h.symm, s5⟩
      | k + 2, h, hlast =>
        obtain ⟨q, hq, r⟩ := ih k e (by simpa using h) (by
          intro m x hm hx
          exact hlast (m + 2) x (by omega) (by simpa using hx))
        exact ⟨q, by simp [hq], r⟩

/-- C37, kept part. With any distribution of elements over processes, some of them without elements: the values
returned are the smallest and largest over all processes, and each comes with the number (offset of a process plus
place there) of an element that has the value. Among the elements of that process with the same value it is one with
the smallest (largest) second coordinate. What is missing: that the second coordinate decides between processes too
(`C37_ties_refuted`); with all elements on one process it does. -/
theorem C37_minmax_partial (zero : V) (e1 e2 : A → V) (parts : List (Nat × List A))
    (hb : ∀ p ∈ parts, p.1 + p.2.length ≤ 2 ^ 64) (hne : ∃ p ∈ parts, p.2 ≠ []) :
    (∃ p ∈ parts, ∃ (i : Nat) (a : A), p.2[i]? = some a ∧ (getCoordMinMax zero e1 e2 parts).1 = ⟨e1 a, p.1 + i⟩ ∧
      (∀ q ∈ parts, ∀ x ∈ q.2, e1 a ≤ e1 x) ∧ ∀ x ∈ p.2, e1 x = e1 a → e2 a ≤ e2 x) ∧
    (∃ p ∈ parts, ∃ (i : Nat) (a : A), p.2[i]? = some a ∧ (getCoordMinMax zero e1 e2 parts).2 = ⟨e1 a, p.1 + i⟩ ∧
      (∀ q ∈ parts, ∀ x ∈ q.2, e1 x ≤ e1 a) ∧ ∀ x ∈ p.2, e1 x = e1 a → e2 x ≤ e2 a) := by
  have hall : parts.flatMap (sends e1 e2) ≠ [] := by
    obtain ⟨p, hp, hpe⟩ := hne
    obtain ⟨i, j, a, b, s1, _⟩ := sends_spec e1 e2 p hpe (hb p hp)
    intro he
    have : (⟨e1 a, p.1 + i⟩ : Elem V) ∈ parts.flatMap (sends e1 e2) := List.mem_flatMap.2 ⟨p, hp, by rw [s1]; simp⟩
    rw [he] at this
    simp at this
  obtain ⟨k, mn, f1, f2, f3, f4⟩ := firstMin_spec (val_weak (V := V)) _ hall
  obtain ⟨m, mx, l1, l2, l3, l4⟩ := lastMax_spec (val_weak (V := V)) _ hall
  have hres : getCoordMinMax zero e1 e2 parts = (mn, mx) := by
    unfold getCoordMinMax
    simp only [f1, l1]
  have hmem : ∀ q ∈ parts, ∀ x ∈ q.2, mn.val ≤ e1 x ∧ e1 x ≤ mx.val := by
    intro q hq x hx
    obtain ⟨i, j, a, b, s1, s2, s3, s4, s5⟩ := sends_spec e1 e2 q (List.ne_nil_of_mem hx) (hb q hq)
    have h1 := f3 ⟨e1 a, q.1 + i⟩ (List.mem_flatMap.2 ⟨q, hq, by rw [s1]; simp⟩)
    have h2 := l3 ⟨e1 b, q.1 + j⟩ (List.mem_flatMap.2 ⟨q, hq, by rw [s1]; simp⟩)
    simp only [decide_eq_false_iff_not, not_lt] at h1 h2
    exact ⟨le_trans h1 (s4 x hx).1, le_trans (s5 x hx).1 h2⟩
  rw [hres]
  refine ⟨?_, ?_⟩
  · obtain ⟨p, hp, i, a, h1, h2, h3⟩ := flat_min e1 e2 parts hb k mn f2 (fun i x hi hx => by
      simpa using f4 i x hi hx)
    refine ⟨p, hp, i, a, h1, h2, ?_, fun x hx => (h3 x hx).2⟩
    intro q hq x hx
    have := (hmem q hq x hx).1
    rwa [h2] at this
  · obtain ⟨p, hp, i, a, h1, h2, h3⟩ := flat_max e1 e2 parts hb m mx l2 (fun i x hi hx => by
      simpa using l4 i x hi hx)
    refine ⟨p, hp, i, a, h1, h2, ?_, fun x hx => (h3 x hx).2⟩
    intro q hq x hx
    have := (hmem q hq x hx).2
    rwa [h2] at this

/-- Three processes, one without elements; an element is a pair of coordinates. -/
example : (∀ p ∈ ([(0, [(3, 1), (2, 5)]), (2, []), (2, [(9, 0), (2, 4)])] : List (Nat × List (Nat × Nat))),
    p.1 + p.2.length ≤ 2 ^ 64) ∧ ∃ p ∈ ([(0, [(3, 1), (2, 5)]), (2, []), (2, [(9, 0), (2, 4)])] : List (Nat × List (Nat × Nat))),
    p.2 ≠ [] := by decide

/-- C37: processes without elements do not take part; if no process has elements the result is marked by the largest
trace number. -/
theorem C37_empty (zero : V) (e1 e2 : A → V) (parts : List (Nat × List A)) :
    getCoordMinMax zero e1 e2 parts = getCoordMinMax zero e1 e2 (parts.filter fun p => !p.2.isEmpty) ∧
      ((∀ p ∈ parts, p.2 = []) → getCoordMinMax zero e1 e2 parts = (⟨zero, 2 ^ 64 - 1⟩, ⟨zero, 2 ^ 64 - 1⟩)) := by
  have h : parts.flatMap (sends e1 e2) = (parts.filter fun p => !p.2.isEmpty).flatMap (sends e1 e2) := by
    induction parts with
    | nil => rfl
    | cons p parts ih =>
      rw [List.flatMap_cons, ih, List.filter_cons]
      by_cases hp : p.2 = []
      · rw [sends_empty e1 e2 p hp]; simp [hp]
      · rw [if_pos (by simpa using hp), List.flatMap_cons]
  refine ⟨?_, ?_⟩
  · unfold getCoordMinMax
    rw [h]
  · intro hp
    have : parts.filter (fun p => !p.2.isEmpty) = [] := by
      rw [List.filter_eq_nil_iff]
      intro p hpm
      simp [hp p hpm]
    unfold getCoordMinMax
    rw [h, this]
    rfl

example : ∀ p ∈ ([(0, []), (0, [])] : List (Nat × List Nat)), p.2 = [] := by decide

/-- C37 fails for equal values on different processes: the second coordinate does not decide, the lowest process is
taken for the smallest value. -/
theorem C37_ties_refuted : ¬ ∀ (parts : List (Nat × List (Nat × Nat))), (∃ p ∈ parts, p.2 ≠ []) →
    ∃ p ∈ parts, ∃ (i : Nat) (a : Nat × Nat), p.2[i]? = some a ∧
      (getCoordMinMax 0 Prod.fst Prod.snd parts).1 = ⟨a.1, p.1 + i⟩ ∧
      ∀ q ∈ parts, ∀ x ∈ q.2, x.1 = a.1 → a.2 ≤ x.2 := by
  intro h
  obtain ⟨p, hp, i, a, h1, h2, h3⟩ := h [(0, [(1, 7)]), (1, [(1, 3)])] (by decide)
  have h4 : (getCoordMinMax 0 Prod.fst Prod.snd [(0, [(1, 7)]), (1, [(1, 3)])]).1 = (⟨1, 0⟩ : Elem Nat) := by decide
  rw [h4] at h2
  injection h2 with h5 h6
  have h7 := h3 (1, [(1, 3)]) (by simp) (1, 3) (by simp) (by simpa using h5)
  simp only [List.mem_cons, List.not_mem_nil, or_false] at hp
  rcases hp with rfl | rfl
  · have hi : i = 0 := by simp only at h6; omega
    subst hi
    simp only [List.getElem?_cons_zero, Option.some.injEq] at h1
    rw [← h1] at h7
    simp at h7
  · simp only at h6
    omega

/-! ## C38 -/

/-- Values of all elements of a set. -/
def valuesOf (e1 : A → ℚ) (files : List (List (Nat × List A))) : List ℚ :=
  files.flatMap fun f => f.flatMap fun p => p.2.map e1

theorem takeMin_val (mm t : Elem ℚ) : (takeMin mm t).val = min mm.val t.val := by
  unfold takeMin
  split
  · rename_i h; simp [h]
  · split
    · rename_i h; rw [min_eq_right (le_of_lt h)]
    · rename_i h; rw [min_eq_left (not_lt.1 h)]

theorem takeMax_val (mm t : Elem ℚ) : (takeMax mm t).val = max mm.val t.val := by
  unfold takeMax
  split
  · rename_i h; simp [h]
  · split
    · rename_i h; rw [max_eq_right (le_of_lt h)]
    · rename_i h; rw [max_eq_left (not_lt.1 h)]

/-- The values after any number of files. -/
theorem set_fold (e1 e2 : A → ℚ) : ∀ (fs : List (List (Nat × List A))) (mm : Elem ℚ × Elem ℚ), (∀ f ∈ fs, ∃ p ∈ f, p.2 ≠ []) →
    (∀ f ∈ fs, ∀ p ∈ f, p.1 + p.2.length ≤ 2 ^ 64) →
    let r := fs.foldl (fun mm f => let t := getCoordMinMax 0 e1 e2 f; (takeMin mm.1 t.1, takeMax mm.2 t.2)) mm
    (r.1.val = mm.1.val ∨ r.1.val ∈ valuesOf e1 fs) ∧ r.1.val ≤ mm.1.val ∧ (∀ v ∈ valuesOf e1 fs, r.1.val ≤ v) ∧
    (r.2.val = mm.2.val ∨ r.2.val ∈ valuesOf e1 fs) ∧ mm.2.val ≤ r.2.val ∧ (∀ v ∈ valuesOf e1 fs, v ≤ r.2.val) := by
  intro fs
  induction fs with
  | nil => intro mm _ _; simp [valuesOf]
  | cons f fs ih =>
    intro mm h1 h2
    obtain ⟨⟨p, hp, i, a, m1, m2, m3, _⟩, ⟨q, hq, j, b, n1, n2, n3, _⟩⟩ :=
      C37_minmax_partial (0 : ℚ) e1 e2 f (h2 f (by simp)) (h1 f (by simp))
    have := ih (takeMin mm.1 (getCoordMinMax 0 e1 e2 f).1, takeMax mm.2 (getCoordMinMax 0 e1 e2 f).2)
      (fun g hg => h1 g (by simp [hg])) (fun g hg => h2 g (by simp [hg]))
    simp only [List.foldl_cons] at this ⊢
    have v1 : (getCoordMinMax 0 e1 e2 f).1.val = e1 a := by rw [m2]
    have v2 : (getCoordMinMax 0 e1 e2 f).2.val = e1 b := by rw [n2]
    rw [takeMin_val, takeMax_val, v1, v2] at this
    obtain ⟨r1, r2, r3, r4, r5, r6⟩ := this
    have hvals : ∀ v, v ∈ valuesOf e1 (f :: fs) ↔ (∃ q ∈ f, ∃ x ∈ q.2, e1 x = v) ∨ v ∈ valuesOf e1 fs := by
      intro v
      unfold valuesOf
      rw [List.flatMap_cons, List.mem_append]
      constructor
      · rintro (h | h)
        · obtain ⟨q, hq, hx⟩ := List.mem_flatMap.1 h
          obtain ⟨x, hx', rfl⟩ := List.mem_map.1 hx
          exact Or.inl ⟨q, hq, x, hx', rfl⟩
        · exact Or.inr h
      · rintro (⟨q, hq, x, hx, rfl⟩ | h)
        · exact Or.inl (List.mem_flatMap.2 ⟨q, hq, List.mem_map_of_mem hx⟩)
        · exact Or.inr h
    refine ⟨?_, le_trans r2 (min_le_left _ _), ?_, ?_, le_trans (le_max_left _ _) r5, ?_⟩
    · rcases r1 with h | h
      · rcases min_choice mm.1.val (e1 a) with hc | hc
        · exact Or.inl (h.trans hc)
        · exact Or.inr ((hvals _).2 (Or.inl ⟨p, hp, a, List.mem_of_getElem? m1, (h.trans hc).symm⟩))
      · exact Or.inr ((hvals _).2 (Or.inr h))
    · intro v hv
      rcases (hvals v).1 hv with ⟨q, hq, x, hx, rfl⟩ | h
      · exact le_trans (le_trans r2 (min_le_right _ _)) (m3 q hq x hx)
      · exact r3 v h
    · rcases r4 with h | h
      · rcases max_choice mm.2.val (e1 b) with hc | hc
        · exact Or.inl (h.trans hc)
        · exact Or.inr ((hvals _).2 (Or.inl ⟨q, hq, b, List.mem_of_getElem? n1, (h.trans hc).symm⟩))
      · exact Or.inr ((hvals _).2 (Or.inr h))
    · intro v hv
      rcases (hvals v).1 hv with ⟨q, hq, x, hx, rfl⟩ | h
      · exact le_trans (n3 q hq x hx) (le_trans (le_max_right _ _) r5)
      · exact r6 v h

theorem dblMax_eq : dblMax = 2 ^ 1024 - 2 ^ 971 := by unfold dblMax; rw [sub_mul, ← pow_add, one_mul]
theorem dblMin_eq : dblMin = 1 / 2 ^ 1022 := rfl

/-- C38, kept part: every file of the set has a trace, values are finite doubles, and the largest value is at least the
smallest positive normal double. Then the result is the smallest and largest value over all files. What is missing:
sets with only values below that (`C38_negative_refuted`), files without traces (`C38_empty_refuted`). -/
theorem C38_set_partial (e1 e2 : A → ℚ) (files : List (List (Nat × List A)))
    (hne : ∀ f ∈ files, ∃ p ∈ f, p.2 ≠ []) (hb : ∀ f ∈ files, ∀ p ∈ f, p.1 + p.2.length ≤ 2 ^ 64)
    (hmax : ∀ v ∈ valuesOf e1 files, v ≤ 2 ^ 1024 - 2 ^ 971) (hpos : ∃ v ∈ valuesOf e1 files, 1 / 2 ^ 1022 ≤ v) :
    ((setMinMax e1 e2 files).1.val ∈ valuesOf e1 files ∧ ∀ v ∈ valuesOf e1 files, (setMinMax e1 e2 files).1.val ≤ v) ∧
    ((setMinMax e1 e2 files).2.val ∈ valuesOf e1 files ∧ ∀ v ∈ valuesOf e1 files, v ≤ (setMinMax e1 e2 files).2.val) := by
  rw [← dblMax_eq] at hmax
  rw [← dblMin_eq] at hpos
  obtain ⟨r1, r2, r3, r4, r5, r6⟩ := set_fold e1 e2 files (⟨dblMax, noTrace⟩, ⟨dblMin, noTrace⟩) hne hb
  change ((setMinMax e1 e2 files).1.val = dblMax ∨ _) at r1
  change ((setMinMax e1 e2 files).2.val = dblMin ∨ _) at r4
  refine ⟨⟨?_, r3⟩, ⟨?_, r6⟩⟩
  · rcases r1 with h | h
    · obtain ⟨v, hv, _⟩ := hpos
      have h1 : (setMinMax e1 e2 files).1.val ≤ v := r3 v hv
      rw [h] at h1 ⊢
      rw [le_antisymm h1 (hmax v hv)]
      exact hv
    · exact h
  · rcases r4 with h | h
    · obtain ⟨v, hv, hv2⟩ := hpos
      have h1 : v ≤ (setMinMax e1 e2 files).2.val := r6 v hv
      rw [h] at h1 ⊢
      rw [le_antisymm hv2 h1]
      exact hv
    · exact h

/-- Two files. -/
example : ∃ v ∈ valuesOf (id : ℚ → ℚ) [[(0, [-5, 2])], [(0, [7])]], dblMin ≤ v :=
  ⟨2, by simp [valuesOf], by decide +kernel⟩

/-- Folding `takeMin` gives one of the elements, smallest in value and then in number. -/
theorem foldMin_spec (ts : List (Elem ℚ)) : ∀ mm : Elem ℚ, ts.foldl takeMin mm ∈ mm :: ts ∧
    ∀ t ∈ mm :: ts, (ts.foldl takeMin mm).val ≤ t.val ∧
      (t.val = (ts.foldl takeMin mm).val → (ts.foldl takeMin mm).num ≤ t.num) := by
  induction ts with
  | nil => intro mm; simp
  | cons t ts ih =>
    intro mm
    obtain ⟨h1, h2⟩ := ih (takeMin mm t)
    have hc : (takeMin mm t = mm ∨ takeMin mm t = t) ∧ ((takeMin mm t).val ≤ mm.val ∧ (takeMin mm t).val ≤ t.val) ∧
        (mm.val = (takeMin mm t).val → (takeMin mm t).num ≤ mm.num) ∧
        (t.val = (takeMin mm t).val → (takeMin mm t).num ≤ t.num) := by
      obtain ⟨mv, mn⟩ := mm
      obtain ⟨tv, tn⟩ := t
      unfold takeMin
      simp only
      split
      · rename_i h
        subst h
        refine ⟨?_, ⟨le_refl _, le_refl _⟩, fun _ => Nat.min_le_right _ _, fun _ => Nat.min_le_left _ _⟩
        rcases Nat.le_total tn mn with h | h
        · exact Or.inr (by rw [Nat.min_eq_left h])
        · exact Or.inl (by rw [Nat.min_eq_right h])
      · rename_i h
        split
        · rename_i h'
          exact ⟨Or.inr rfl, ⟨le_of_lt h', le_refl _⟩, fun e => absurd e.symm h, fun _ => Nat.le_refl _⟩
        · rename_i h'
          exact ⟨Or.inl rfl, ⟨le_refl _, not_lt.1 h'⟩, fun _ => Nat.le_refl _, fun e => absurd e h⟩
    obtain ⟨c1, ⟨c2, c3⟩, c4, c5⟩ := hc
    rw [List.foldl_cons]
    have h0 := h2 (takeMin mm t) (by simp)
    have key : ∀ x : Elem ℚ, (takeMin mm t).val ≤ x.val → (x.val = (takeMin mm t).val → (takeMin mm t).num ≤ x.num) →
        (List.foldl takeMin (takeMin mm t) ts).val ≤ x.val ∧
          (x.val = (List.foldl takeMin (takeMin mm t) ts).val → (List.foldl takeMin (takeMin mm t) ts).num ≤ x.num) := by
      intro x hx hn
      refine ⟨le_trans h0.1 hx, fun e => ?_⟩
      have e1 : (takeMin mm t).val = x.val := le_antisymm hx (by rw [e]; exact h0.1)
      exact le_trans (h0.2 (by rw [e1, e])) (hn e1.symm)
    refine ⟨?_, ?_⟩
    · rcases List.mem_cons.1 h1 with h | h
      · rw [h]
        rcases c1 with h | h <;> rw [h] <;> simp
      · simp [h]
    · intro x hx
      rcases List.mem_cons.1 hx with rfl | hx
      · exact key _ c2 c4
      · rcases List.mem_cons.1 hx with rfl | hx
        · exact key _ c3 c5
        · exact h2 x (by simp [hx])

/-- Folding `takeMax` gives one of the elements, largest in value and then smallest in number. -/
theorem foldMax_spec (ts : List (Elem ℚ)) : ∀ mm : Elem ℚ, ts.foldl takeMax mm ∈ mm :: ts ∧
    ∀ t ∈ mm :: ts, t.val ≤ (ts.foldl takeMax mm).val ∧
      (t.val = (ts.foldl takeMax mm).val → (ts.foldl takeMax mm).num ≤ t.num) := by
  induction ts with
  | nil => intro mm; simp
  | cons t ts ih =>
    intro mm
    obtain ⟨h1, h2⟩ := ih (takeMax mm t)
    have hc : (takeMax mm t = mm ∨ takeMax mm t = t) ∧ (mm.val ≤ (takeMax mm t).val ∧ t.val ≤ (takeMax mm t).val) ∧
        (mm.val = (takeMax mm t).val → (takeMax mm t).num ≤ mm.num) ∧
        (t.val = (takeMax mm t).val → (takeMax mm t).num ≤ t.num) := by
      obtain ⟨mv, mn⟩ := mm
      obtain ⟨tv, tn⟩ := t
      unfold takeMax
      simp only
      split
      · rename_i h
        subst h
        refine ⟨?_, ⟨le_refl _, le_refl _⟩, fun _ => Nat.min_le_right _ _, fun _ => Nat.min_le_left _ _⟩
        rcases Nat.le_total tn mn with h | h
        · exact Or.inr (by rw [Nat.min_eq_left h])
        · exact Or.inl (by rw [Nat.min_eq_right h])
      · rename_i h
        split
        · rename_i h'
          exact ⟨Or.inr rfl, ⟨le_of_lt h', le_refl _⟩, fun e => absurd e.symm h, fun _ => Nat.le_refl _⟩
        · rename_i h'
          exact ⟨Or.inl rfl, ⟨le_refl _, not_lt.1 h'⟩, fun _ => Nat.le_refl _, fun e => absurd e h⟩
    obtain ⟨c1, ⟨c2, c3⟩, c4, c5⟩ := hc
    rw [List.foldl_cons]
    have h0 := h2 (takeMax mm t) (by simp)
    have key : ∀ x : Elem ℚ, x.val ≤ (takeMax mm t).val → (x.val = (takeMax mm t).val → (takeMax mm t).num ≤ x.num) →
        x.val ≤ (List.foldl takeMax (takeMax mm t) ts).val ∧
          (x.val = (List.foldl takeMax (takeMax mm t) ts).val → (List.foldl takeMax (takeMax mm t) ts).num ≤ x.num) := by
      intro x hx hn
      refine ⟨le_trans hx h0.1, fun e => ?_⟩
      have e1 : (takeMax mm t).val = x.val := le_antisymm (by rw [e]; exact h0.1) hx
      exact le_trans (h0.2 (by rw [e1, e])) (hn e1.symm)
    refine ⟨?_, ?_⟩
    · rcases List.mem_cons.1 h1 with h | h
      · rw [h]
        rcases c1 with h | h <;> rw [h] <;> simp
      · simp [h]
    · intro x hx
      rcases List.mem_cons.1 hx with rfl | hx
      · exact key _ c2 c4
      · rcases List.mem_cons.1 hx with rfl | hx
        · exact key _ c3 c5
        · exact h2 x (by simp [hx])

theorem setMinMax_eq (e1 e2 : A → ℚ) (files : List (List (Nat × List A))) : setMinMax e1 e2 files =
    ((files.map fun f => (getCoordMinMax 0 e1 e2 f).1).foldl takeMin ⟨dblMax, noTrace⟩,
      (files.map fun f => (getCoordMinMax 0 e1 e2 f).2).foldl takeMax ⟨dblMin, noTrace⟩) := by
  unfold setMinMax
  generalize (⟨dblMax, noTrace⟩ : Elem ℚ) = a
  generalize (⟨dblMin, noTrace⟩ : Elem ℚ) = b
  induction files generalizing a b with
  | nil => rfl
  | cons f fs ih => simp only [List.foldl_cons, List.map_cons, ih]

/-- C38, trace numbers, under the hypotheses of `C38_set_partial`. The number returned beside the smallest and the
largest value is the number, within its file, of a trace that has the value, and of all files that have the value it is
the smallest of the numbers that `getCoordMinMax` reports for the file (which trace that is, is C37). -/
theorem C38_numbers_partial (e1 e2 : A → ℚ) (files : List (List (Nat × List A)))
    (hne : ∀ f ∈ files, ∃ p ∈ f, p.2 ≠ []) (hb : ∀ f ∈ files, ∀ p ∈ f, p.1 + p.2.length ≤ 2 ^ 64)
    (hmax : ∀ v ∈ valuesOf e1 files, v ≤ 2 ^ 1024 - 2 ^ 971) (hpos : ∃ v ∈ valuesOf e1 files, 1 / 2 ^ 1022 ≤ v) :
    (∃ f ∈ files, ∃ p ∈ f, ∃ (i : Nat) (a : A), p.2[i]? = some a ∧ (setMinMax e1 e2 files).1 = ⟨e1 a, p.1 + i⟩) ∧
    (∃ f ∈ files, ∃ p ∈ f, ∃ (i : Nat) (a : A), p.2[i]? = some a ∧ (setMinMax e1 e2 files).2 = ⟨e1 a, p.1 + i⟩) ∧
    (∀ f ∈ files, (getCoordMinMax 0 e1 e2 f).1.val = (setMinMax e1 e2 files).1.val →
      (setMinMax e1 e2 files).1.num ≤ (getCoordMinMax 0 e1 e2 f).1.num) ∧
    ∀ f ∈ files, (getCoordMinMax 0 e1 e2 f).2.val = (setMinMax e1 e2 files).2.val →
      (setMinMax e1 e2 files).2.num ≤ (getCoordMinMax 0 e1 e2 f).2.num := by
  obtain ⟨⟨a1, a2⟩, b1, b2⟩ := C38_set_partial e1 e2 files hne hb hmax hpos
  rw [setMinMax_eq] at a1 a2 b1 b2 ⊢
  simp only at a1 a2 b1 b2 ⊢
  obtain ⟨m1, m2⟩ := foldMin_spec (files.map fun f => (getCoordMinMax 0 e1 e2 f).1) ⟨dblMax, noTrace⟩
  obtain ⟨n1, n2⟩ := foldMax_spec (files.map fun f => (getCoordMinMax 0 e1 e2 f).2) ⟨dblMin, noTrace⟩
  generalize (files.map fun f => (getCoordMinMax 0 e1 e2 f).1).foldl takeMin ⟨dblMax, noTrace⟩ = r at *
  generalize (files.map fun f => (getCoordMinMax 0 e1 e2 f).2).foldl takeMax ⟨dblMin, noTrace⟩ = s at *
  refine ⟨?_, ?_, ?_, ?_⟩
  · have hm : r ∈ files.map fun f => (getCoordMinMax 0 e1 e2 f).1 := by
      rcases List.mem_cons.1 m1 with h | h
      · unfold valuesOf at a1
        obtain ⟨f, hf, hx⟩ := List.mem_flatMap.1 a1
        obtain ⟨q, hq, hx⟩ := List.mem_flatMap.1 hx
        obtain ⟨x, hx, hv⟩ := List.mem_map.1 hx
        obtain ⟨⟨p, hp, i, a, k1, k2, k3, _⟩, -⟩ := C37_minmax_partial (0 : ℚ) e1 e2 f (hb f hf) (hne f hf)
        have hval : e1 a = r.val := le_antisymm (by rw [← hv]; exact k3 q hq x hx)
          (a2 _ (List.mem_flatMap.2 ⟨f, hf, List.mem_flatMap.2 ⟨p, hp, List.mem_map_of_mem (List.mem_of_getElem? k1)⟩⟩))
        have hmem : (getCoordMinMax 0 e1 e2 f).1 ∈ files.map fun f => (getCoordMinMax 0 e1 e2 f).1 :=
          List.mem_map_of_mem (f := fun f => (getCoordMinMax 0 e1 e2 f).1) hf
        have hn := (m2 _ (List.mem_cons_of_mem _ hmem)).2 (by rw [k2]; exact hval)
        have hlt : i < p.2.length := (List.getElem?_eq_some_iff.1 k1).1
        have hbp := hb f hf p hp
        have : r = (getCoordMinMax 0 e1 e2 f).1 := by
          rw [k2] at hn ⊢
          rw [h] at hn hval ⊢
          simp only [noTrace] at hn
          rw [hval]
          simp only [noTrace, Elem.mk.injEq, true_and]
          omega
        rw [this]
        exact hmem
      · exact h
    obtain ⟨f, hf, h⟩ := List.mem_map.1 hm
    obtain ⟨⟨p, hp, i, a, k1, k2, -⟩, -⟩ := C37_minmax_partial (0 : ℚ) e1 e2 f (hb f hf) (hne f hf)
    exact ⟨f, hf, p, hp, i, a, k1, by rw [← h, k2]⟩
  · have hm : s ∈ files.map fun f => (getCoordMinMax 0 e1 e2 f).2 := by
      rcases List.mem_cons.1 n1 with h | h
      · unfold valuesOf at b1
        obtain ⟨f, hf, hx⟩ := List.mem_flatMap.1 b1
        obtain ⟨q, hq, hx⟩ := List.mem_flatMap.1 hx
        obtain ⟨x, hx, hv⟩ := List.mem_map.1 hx
        obtain ⟨-, ⟨p, hp, i, a, k1, k2, k3, _⟩⟩ := C37_minmax_partial (0 : ℚ) e1 e2 f (hb f hf) (hne f hf)
        have hval : e1 a = s.val := le_antisymm
          (b2 _ (List.mem_flatMap.2 ⟨f, hf, List.mem_flatMap.2 ⟨p, hp, List.mem_map_of_mem (List.mem_of_getElem? k1)⟩⟩))
          (by rw [← hv]; exact k3 q hq x hx)
        have hmem : (getCoordMinMax 0 e1 e2 f).2 ∈ files.map fun f => (getCoordMinMax 0 e1 e2 f).2 :=
          List.mem_map_of_mem (f := fun f => (getCoordMinMax 0 e1 e2 f).2) hf
        have hn := (n2 _ (List.mem_cons_of_mem _ hmem)).2 (by rw [k2]; exact hval)
        have hlt : i < p.2.length := (List.getElem?_eq_some_iff.1 k1).1
        have hbp := hb f hf p hp
        have : s = (getCoordMinMax 0 e1 e2 f).2 := by
          rw [k2] at hn ⊢
          rw [h] at hn hval ⊢
          simp only [noTrace] at hn
          rw [hval]
          simp only [noTrace, Elem.mk.injEq, true_and]
          omega
        rw [this]
        exact hmem
      · exact h
    obtain ⟨f, hf, h⟩ := List.mem_map.1 hm
    obtain ⟨-, ⟨p, hp, i, a, k1, k2, -⟩⟩ := C37_minmax_partial (0 : ℚ) e1 e2 f (hb f hf) (hne f hf)
    exact ⟨f, hf, p, hp, i, a, k1, by rw [← h, k2]⟩
  · intro f hf he
    exact (m2 _ (List.mem_cons_of_mem _ (List.mem_map_of_mem (f := fun f => (getCoordMinMax 0 e1 e2 f).1) hf))).2 he
  · intro f hf he
    exact (n2 _ (List.mem_cons_of_mem _ (List.mem_map_of_mem (f := fun f => (getCoordMinMax 0 e1 e2 f).2) hf))).2 he

/-- C38 fails: for any files with traces all of whose values are below the smallest positive normal double, for
example negative, the maximum returned is that number, which is none of the values. -/
theorem C38_negative_refuted (e1 e2 : A → ℚ) (files : List (List (Nat × List A)))
    (hne : ∀ f ∈ files, ∃ p ∈ f, p.2 ≠ []) (hb : ∀ f ∈ files, ∀ p ∈ f, p.1 + p.2.length ≤ 2 ^ 64)
    (hneg : ∀ v ∈ valuesOf e1 files, v < 1 / 2 ^ 1022) :
    (setMinMax e1 e2 files).2.val = 1 / 2 ^ 1022 ∧ (setMinMax e1 e2 files).2.val ∉ valuesOf e1 files := by
  obtain ⟨-, -, -, r4, r5, -⟩ := set_fold e1 e2 files (⟨dblMax, noTrace⟩, ⟨dblMin, noTrace⟩) hne hb
  change ((setMinMax e1 e2 files).2.val = dblMin ∨ _) at r4
  change dblMin ≤ (setMinMax e1 e2 files).2.val at r5
  have hv : (setMinMax e1 e2 files).2.val = dblMin := by
    rcases r4 with h | h
    · exact h
    · exact absurd (hneg _ h) (not_lt.2 r5)
  refine ⟨hv, ?_⟩
  intro h
  exact absurd (hneg _ h) (not_lt.2 r5)

example : ∀ v ∈ valuesOf (id : ℚ → ℚ) [[(0, [-5, -2])], [(0, [-7])]], v < 1 / 2 ^ 1022 := by
  decide +kernel

/-- C38 fails: a file without traces counts as the value 0. -/
theorem C38_empty_refuted : ¬ ∀ (files : List (List (Nat × List ℚ))), (∃ f ∈ files, ∃ p ∈ f, p.2 ≠ []) →
    (setMinMax id id files).1.val ∈ valuesOf id files := by
  intro h
  have := h [[(0, [5])], [(0, [])]] (by simp)
  have h2 : (setMinMax (id : ℚ → ℚ) id [[(0, [5])], [(0, [])]]).1.val = 0 := by
    have h3 : getCoordMinMax 0 (id : ℚ → ℚ) id [(0, [5])] = (⟨5, 0⟩, ⟨5, 0⟩) := by decide +kernel
    have h4 : (getCoordMinMax 0 (id : ℚ → ℚ) id [(0, [])]).1.val = 0 := by decide +kernel
    unfold setMinMax
    simp only [List.foldl_cons, List.foldl_nil, h3, h4, takeMin_val]
    rw [min_eq_right]
    rw [le_min_iff]
    unfold dblMax
    norm_num
  rw [h2] at this
  simp only [valuesOf, List.flatMap_cons, List.flatMap_nil, List.append_nil, List.map_cons, List.map_nil, id,
    List.mem_singleton] at this
  norm_num at this

end Verif.Ops
