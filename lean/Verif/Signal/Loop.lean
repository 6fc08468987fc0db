import Verif.Basic

/-!
# Counting loops and array accesses for the signal processing code
-/

namespace Verif.Signal

/-- `for (size_t j = lo; j < lo + n; j++)` with a body that may fail; used for the loops of
`src/utils/signal_processing/*.cc` and `src/temporalfilter.cc`. -/
def forRange {S : Type} (f : Nat → S → Res S) : Nat → Nat → S → Res S
  | _, 0, s => .ok s
  | lo, n + 1, s => do
    let s ← f lo s
    forRange f (lo + 1) n s

/-- `p[i]` read (the arrays of `src/utils/signal_processing/*.cc` and `src/temporalfilter.cc`); outside it is
undefined behaviour. -/
def readAt {V : Type} (l : List V) (i : Nat) : Res V :=
  match l[i]? with
  | some v => .ok v
  | none => .ub

/-- `p[i] = v` (same files); outside it is undefined behaviour. -/
def writeAt {V : Type} (l : List V) (i : Nat) (v : V) : Res (List V) :=
  if i < l.length then .ok (l.set i v) else .ub

variable {S V : Type}

theorem readAt_ok {l : List V} {i : Nat} (h : i < l.length) : readAt l i = .ok l[i] := by
  unfold readAt; rw [List.getElem?_eq_getElem h]

theorem readAt_some {l : List V} {i : Nat} {v : V} (h : l[i]? = some v) : readAt l i = .ok v := by
  unfold readAt; rw [h]

theorem readAt_ub {l : List V} {i : Nat} (h : l.length ≤ i) : readAt l i = .ub := by
  unfold readAt; rw [List.getElem?_eq_none h]

theorem writeAt_ok {l : List V} {i : Nat} (v : V) (h : i < l.length) : writeAt l i v = .ok (l.set i v) := by
  unfold writeAt; rw [if_pos h]

/-- A loop whose body succeeds keeps an invariant. -/
theorem forRange_inv (f : Nat → S → Res S) (P : Nat → S → Prop) :
    ∀ (n lo : Nat) (s : S), P lo s → (∀ j s, lo ≤ j → j < lo + n → P j s → ∃ s', f j s = .ok s' ∧ P (j + 1) s') →
      ∃ s', forRange f lo n s = .ok s' ∧ P (lo + n) s' := by
  intro n
  induction n with
  | zero => intro lo s h _; exact ⟨s, rfl, h⟩
  | succ n ih =>
    intro lo s h hs
    obtain ⟨s', h1, h2⟩ := hs lo s (Nat.le_refl _) (by omega) h
    obtain ⟨s'', h3, h4⟩ := ih (lo + 1) s' h2 (fun j t hj1 hj2 => hs j t (by omega) (by omega))
    refine ⟨s'', ?_, by rw [show lo + (n + 1) = lo + 1 + n by omega]; exact h4⟩
    unfold forRange
    rw [h1, Res.ok_bind, h3]

/-- A loop whose body has no undefined behaviour has none. -/
theorem forRange_safe (f : Nat → S → Res S) (P : Nat → S → Prop) :
    ∀ (n lo : Nat) (s : S), P lo s →
      (∀ j s, lo ≤ j → j < lo + n → P j s → f j s = .abort ∨ ∃ s', f j s = .ok s' ∧ P (j + 1) s') →
      forRange f lo n s = .abort ∨ ∃ s', forRange f lo n s = .ok s' ∧ P (lo + n) s' := by
  intro n
  induction n with
  | zero => intro lo s h _; exact Or.inr ⟨s, rfl, h⟩
  | succ n ih =>
    intro lo s h hs
    rcases hs lo s (Nat.le_refl _) (by omega) h with h0 | ⟨s', h1, h2⟩
    · refine Or.inl ?_
      unfold forRange
      rw [h0]; rfl
    · have := ih (lo + 1) s' h2 (fun j t hj1 hj2 => hs j t (by omega) (by omega))
      unfold forRange
      rw [h1, Res.ok_bind, show lo + (n + 1) = lo + 1 + n by omega]
      exact this

theorem forRange_succ (f : Nat → S → Res S) (lo n : Nat) (s : S) :
    forRange f lo (n + 1) s = (f lo s >>= fun s => forRange f (lo + 1) n s) := rfl

/-- A loop split after its first `m` rounds. -/
theorem forRange_split (f : Nat → S → Res S) : ∀ (m k lo : Nat) (s s' : S), forRange f lo m s = .ok s' →
    forRange f lo (m + k) s = forRange f (lo + m) k s' := by
  intro m
  induction m with
  | zero => intro k lo s s' h; cases h; simp
  | succ m ih =>
    intro k lo s s' h
    rw [show m + 1 + k = (m + k) + 1 by omega, forRange_succ]
    rw [forRange_succ] at h
    cases hf : f lo s with
    | ok t =>
      rw [hf, Res.ok_bind] at h
      rw [Res.ok_bind, ih k (lo + 1) t s' h, show lo + 1 + m = lo + (m + 1) by omega]
    | ub => rw [hf] at h; cases h
    | abort => rw [hf] at h; cases h

/-- A loop one of whose rounds is undefined behaviour, none ending the program before it, is undefined behaviour. -/
theorem forRange_ub (f : Nat → S → Res S) (P : S → Prop) (m : Nat) : ∀ (n lo : Nat) (s : S), P s →
    (∀ j s, lo ≤ j → j < lo + n → P s → f j s = .ub ∨ ∃ s', f j s = .ok s' ∧ P s') → lo ≤ m → m < lo + n →
    (∀ s, P s → f m s = .ub) → forRange f lo n s = .ub := by
  intro n
  induction n with
  | zero => intro lo s _ _ h1 h2; omega
  | succ n ih =>
    intro lo s hs hstep h1 h2 hm
    rw [forRange_succ]
    by_cases hlm : lo = m
    · subst hlm; rw [hm s hs]; rfl
    · rcases hstep lo s (Nat.le_refl _) (by omega) hs with h | ⟨s', h, hs'⟩
      · rw [h]; rfl
      · rw [h, Res.ok_bind]
        exact ih (lo + 1) s' hs' (fun j t hj1 hj2 => hstep j t (by omega) (by omega)) (by omega) (by omega) hm

/-- Extensionality by position for lists of a known length. -/
theorem ext_of_get {l : List V} {n : Nat} {g : Nat → V} (hl : l.length = n) (h : ∀ i, i < n → l[i]? = some (g i)) :
    l = (List.range n).map g := by
  apply List.ext_getElem?
  intro i
  by_cases hi : i < n
  · rw [h i hi]; simp [hi]
  · rw [List.getElem?_eq_none (by omega), List.getElem?_eq_none (by simp; omega)]

end Verif.Signal
