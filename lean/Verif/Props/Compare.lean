import Verif.Sort.Compare
import Mathlib.Order.Lattice
import Mathlib.Data.List.Lex
import Mathlib.Tactic.Linarith
import Mathlib.Tactic.NormNum

/-!
C26: the comparisons of the sort are strict total orders. C54: sorting by the recorded offset. C81:
sorting by the offset that is calculated.
-/

namespace Verif.Sort

open Verif.FP

/-- The keys that the documentation of the sort types (`include/ExSeisDat/PIOL/SortType.h` 23-50) names, most
significant first, with the trace number as the last one. `r` stands for the recorded offset. -/
def documented (o : OffFn) (r : Tr → ℚ) (ty : SortType) (t : Tr) : List ℚ :=
  let co := o t.sx t.sy t.rx t.ry
  match ty with
  | 36 => [t.sx, t.sy, co, t.ltn]
  | 37 => [t.sx, t.sy, r t, t.ltn]
  | 38 => [t.rx, t.ry, co, t.ltn]
  | 39 => [t.rx, t.ry, r t, t.ltn]
  | 40 => [t.il, t.xl, co, t.ltn]
  | 41 => [t.il, t.xl, r t, t.ltn]
  | 42 => [co, t.il, t.xl, t.ltn]
  | 43 => [r t, t.il, t.xl, t.ltn]
  | _ => [t.sx, t.sy, t.rx, t.ry, t.ltn]

theorem lt4 {a b c d a' b' c' d' : ℚ} : [a, b, c, d] < [a', b', c', d'] ↔
    a < a' ∨ a = a' ∧ (b < b' ∨ b = b' ∧ (c < c' ∨ c = c' ∧ d < d')) := by
  simp [List.cons_lt_cons_iff]

theorem lt5 {a b c d e a' b' c' d' e' : ℚ} : [a, b, c, d, e] < [a', b', c', d', e'] ↔
    a < a' ∨ a = a' ∧ (b < b' ∨ b = b' ∧ (c < c' ∨ c = c' ∧ (d < d' ∨ d = d' ∧ e < e'))) := by
  simp [List.cons_lt_cons_iff]

theorem ladder {p q : Prop} [Decidable p] [Decidable q] {x : Bool} :
    (if p then true else if q then x else false) = true ↔ p ∨ q ∧ x = true := by
  by_cases hp : p <;> by_cases hq : q <;> simp [hp, hq]

/-- Every comparison of the sort is the lexicographic order of the documented keys, where "offset read from
file" is the value that `readOff` yields. -/
theorem C26_keys (o : OffFn) (ty : SortType) (a b : Tr) :
    getComp o ty a b = true ↔ documented o readOff ty a < documented o readOff ty b := by
  unfold getComp
  split_ifs with h35 h36 h37 h38 h39 h40 h41 h42 h43
  all_goals first | subst ty | skip
  · simp only [lessSrcRcv, documented, ladder, lt5, decide_eq_true_eq, Int.cast_lt]
  · simp only [lessSrcOff, documented, ladder, lt4, offOf, if_true, Bool.or_eq_true, Bool.and_eq_true,
      decide_eq_true_eq, Int.cast_lt]
  · simp only [lessSrcOff, documented, ladder, lt4, offOf, Bool.false_eq_true, if_false, Bool.or_eq_true, Bool.and_eq_true,
      decide_eq_true_eq, Int.cast_lt]
  · simp only [lessRcvOff, documented, ladder, lt4, offOf, if_true, Bool.or_eq_true, Bool.and_eq_true,
      decide_eq_true_eq, Int.cast_lt]
  · simp only [lessRcvOff, documented, ladder, lt4, offOf, Bool.false_eq_true, if_false, Bool.or_eq_true, Bool.and_eq_true,
      decide_eq_true_eq, Int.cast_lt]
  · simp only [lessLineOff, documented, ladder, lt4, offOf, if_true, Bool.or_eq_true, Bool.and_eq_true,
      decide_eq_true_eq, Int.cast_lt, Int.cast_inj]
  · simp only [lessLineOff, documented, ladder, lt4, offOf, Bool.false_eq_true, if_false, Bool.or_eq_true, Bool.and_eq_true,
      decide_eq_true_eq, Int.cast_lt, Int.cast_inj]
  · simp only [lessOffLine, documented, ladder, lt4, offOf, if_true, Bool.or_eq_true, Bool.and_eq_true,
      decide_eq_true_eq, Int.cast_lt, Int.cast_inj]
  · simp only [lessOffLine, documented, ladder, lt4, offOf, Bool.false_eq_true, if_false, Bool.or_eq_true, Bool.and_eq_true,
      decide_eq_true_eq, Int.cast_lt, Int.cast_inj]
  · have : documented o readOff ty = fun t => [t.sx, t.sy, t.rx, t.ry, (t.ltn : ℚ)] := by
      funext t
      unfold documented
      simp only
    simp only [this, lessSrcRcv, ladder, lt5, decide_eq_true_eq, Int.cast_lt]

/-- The last documented key is the trace number. -/
theorem documented_last (o : OffFn) (r : Tr → ℚ) (ty : SortType) (t : Tr) :
    (documented o r ty t).getLast? = some (t.ltn : ℚ) := by
  unfold documented
  simp only
  split <;> rfl

/-- C26. For every sort type, whatever the way the calculated offset is evaluated: no trace precedes itself,
the comparison is transitive, and of two traces with different trace numbers exactly one precedes the other. -/
theorem C26_strict_total (o : OffFn) (ty : SortType) :
    (∀ a, getComp o ty a a = false) ∧
    (∀ a b c, getComp o ty a b = true → getComp o ty b c = true → getComp o ty a c = true) ∧
    (∀ a b, a.ltn ≠ b.ltn → ((getComp o ty a b = true ∧ getComp o ty b a = false) ∨
      (getComp o ty a b = false ∧ getComp o ty b a = true))) := by
  refine ⟨?_, ?_, ?_⟩
  · intro a
    rw [← Bool.not_eq_true, C26_keys]
    exact lt_irrefl _
  · intro a b c h1 h2
    rw [C26_keys] at *
    exact lt_trans h1 h2
  · intro a b h
    have hne : documented o readOff ty a ≠ documented o readOff ty b := by
      intro he
      have := congrArg List.getLast? he
      rw [documented_last, documented_last] at this
      injection this with this
      exact h (by exact_mod_cast this)
    rw [← Bool.not_eq_true, ← Bool.not_eq_true, C26_keys, C26_keys]
    rcases lt_trichotomy (documented o readOff ty a) (documented o readOff ty b) with h1 | h1 | h1
    · exact Or.inl ⟨h1, lt_asymm h1⟩
    · exact absurd h1 hne
    · exact Or.inr ⟨lt_asymm h1, h1⟩

/-- Two traces at one source point, with different receivers and trace numbers. -/
example : getComp off 35 ⟨1, 2, 3, 4, 5, 6, 7, 0⟩ ⟨1, 2, 3, 5, 5, 6, 7, 1⟩ = true ∧
    (0 : ℤ) ≠ 1 := by decide +kernel

/-- C54, kept part. If no recorded offset is negative and all are below `2^53`, the sort types that use the
recorded offset order by its value. -/
theorem C54_recorded_partial (o : OffFn) (ty : SortType) (a b : Tr)
    (ha : 0 ≤ a.roff) (ha' : a.roff < 2 ^ 53) (hb : 0 ≤ b.roff) (hb' : b.roff < 2 ^ 53) :
    getComp o ty a b = true ↔
      documented o (fun t => (t.roff : ℚ)) ty a < documented o (fun t => (t.roff : ℚ)) ty b := by
  have key : ∀ t : Tr, 0 ≤ t.roff → t.roff < 2 ^ 53 → readOff t = (t.roff : ℚ) := by
    intro t h0 h1
    unfold readOff
    rw [Int.emod_eq_of_lt h0 (by omega)]
    exact rnd_int (by rw [abs_of_nonneg h0]; exact h1)
  have hd : ∀ t : Tr, readOff t = (t.roff : ℚ) → documented o readOff ty t = documented o (fun t => (t.roff : ℚ)) ty t := by
    intro t h
    unfold documented
    simp only [h]
  rw [C26_keys, hd a (key a ha ha'), hd b (key b hb hb')]

example : getComp off 43 ⟨0, 0, 0, 0, 5, 6, 7, 3⟩ ⟨0, 0, 0, 0, 4, 4, 8, 1⟩ = true := by decide +kernel

/-- C54 fails: with a negative recorded offset (usual for a split-spread geometry) the order is not that of the
recorded offsets. A trace at offset 100 precedes one at offset -100. -/
theorem C54_recorded_refuted : ¬ ∀ (o : OffFn) (ty : SortType) (a b : Tr),
    getComp o ty a b = true ↔
      documented o (fun t => (t.roff : ℚ)) ty a < documented o (fun t => (t.roff : ℚ)) ty b := by
  intro h
  have h1 := (h off 43 ⟨0, 0, 0, 0, 1, 1, 100, 0⟩ ⟨0, 0, 0, 0, 1, 1, -100, 1⟩).1 (by decide +kernel)
  simp only [documented, lt4] at h1
  norm_num at h1

/-- Traces whose source and receiver are whole numbers (of metres, say) apart, fewer than `2^26` along each axis. -/
def Whole (t : Tr) : Prop := ∃ x y : ℤ, |x| < 2 ^ 26 ∧ |y| < 2 ^ 26 ∧ t.sx - t.rx = x ∧ t.sy - t.ry = y

/-- C81, kept part: for traces that are whole numbers apart the sort types that calculate an offset
order by the distance of source and receiver. Missing: coordinates with decimal places, and larger ones, for which
`C81_distance_refuted` shows that it is false. -/
theorem C81_distance_partial (ty : SortType) (a b : Tr) (ha : Whole a) (hb : Whole b) :
    getComp off ty a b = true ↔
      documented (fun sx sy rx ry => (sx - rx) ^ 2 + (sy - ry) ^ 2) readOff ty a <
        documented (fun sx sy rx ry => (sx - rx) ^ 2 + (sy - ry) ^ 2) readOff ty b := by
  have key : ∀ t : Tr, Whole t → off t.sx t.sy t.rx t.ry = (t.sx - t.rx) ^ 2 + (t.sy - t.ry) ^ 2 := by
    rintro t ⟨x, y, hx, hy, ex, ey⟩
    have sq : ∀ z : ℤ, |z| < 2 ^ 26 → z * z < 2 ^ 52 := by
      intro z hz
      rw [← abs_mul_abs_self z]
      have := abs_nonneg z
      nlinarith
    have hx2 := sq x hx
    have hy2 := sq y hy
    have nx := mul_self_nonneg x
    have ny := mul_self_nonneg y
    have s1 : rnd (x : ℚ) = x := rnd_int (by omega)
    have s2 : rnd (y : ℚ) = y := rnd_int (by omega)
    have s3 : rnd ((x : ℚ) * x) = x * x := by
      have := rnd_int (n := x * x) (by rw [abs_of_nonneg nx]; omega)
      push_cast at this; exact this
    have s4 : rnd ((y : ℚ) * y) = y * y := by
      have := rnd_int (n := y * y) (by rw [abs_of_nonneg ny]; omega)
      push_cast at this; exact this
    have s5 : rnd ((x : ℚ) * x + y * y) = x * x + y * y := by
      have := rnd_int (n := x * x + y * y) (by rw [abs_of_nonneg (by omega)]; omega)
      push_cast at this; exact this
    unfold off
    rw [ex, ey, s1, s2, s3, s4, s5, pow_two, pow_two]
  have hd : ∀ t : Tr, Whole t → documented off readOff ty t =
      documented (fun sx sy rx ry => (sx - rx) ^ 2 + (sy - ry) ^ 2) readOff ty t := by
    intro t h
    unfold documented
    simp only [key t h]
  rw [C26_keys, hd a ha, hd b hb]

/-- A receiver 3 and 4 metres off comes before one 3 and 5 metres off, on the other side. -/
example : Whole ⟨10, 20, 13, 24, 5, 6, 7, 3⟩ ∧ Whole ⟨10, 20, 7, 15, 5, 6, 7, 1⟩ ∧
    getComp off 42 ⟨10, 20, 13, 24, 5, 6, 7, 3⟩ ⟨10, 20, 7, 15, 5, 6, 7, 1⟩ = true := by
  have h1 : Whole ⟨10, 20, 13, 24, 5, 6, 7, 3⟩ := ⟨-3, -4, by decide, by decide, by norm_num, by norm_num⟩
  have h2 : Whole ⟨10, 20, 7, 15, 5, 6, 7, 1⟩ := ⟨3, 5, by decide, by decide, by norm_num, by norm_num⟩
  refine ⟨h1, h2, (C81_distance_partial 42 _ _ h1 h2).2 ?_⟩
  simp only [documented, lt4]
  norm_num

/-- The full claim for the offset that is calculated fails: traces `2^30` apart along one axis, with and without a metre
along the other, count as equally far. -/
theorem C81_distance_refuted : ¬ ∀ (ty : SortType) (a b : Tr), getComp off ty a b = true ↔
      documented (fun sx sy rx ry => (sx - rx) ^ 2 + (sy - ry) ^ 2) readOff ty a <
        documented (fun sx sy rx ry => (sx - rx) ^ 2 + (sy - ry) ^ 2) readOff ty b := by
  intro h
  have h1 := (h 42 ⟨2 ^ 30, 1, 0, 0, 1, 1, 0, 0⟩ ⟨2 ^ 30, 0, 0, 0, 1, 1, 0, 1⟩).1 (by decide +kernel)
  simp only [documented, lt4] at h1
  norm_num at h1

/-- Rounding of a number that is zero or not tiny. -/
theorem rnd_rel {x : ℚ} (h0 : 0 ≤ x) (h : x = 0 ∨ (2 : ℚ) ^ (-1022 : ℤ) ≤ x) :
    x * (1 - 1 / 2 ^ 53) ≤ rnd x ∧ rnd x ≤ x * (1 + 1 / 2 ^ 53) := by
  rcases h with rfl | h
  · rw [rnd_zero]; simp
  · have := rnd_err (x := x) (by rw [abs_of_nonneg h0]; exact h)
    rw [abs_of_nonneg h0, abs_le] at this
    constructor <;> linarith [this.1, this.2]

/-- Coordinates that are the same or at least `2^-100` apart (those of a file are, unless they are the same, at least
10^-5 of a unit apart). -/
def Apart (x y : ℚ) : Prop := x = y ∨ (2 : ℚ) ^ (-100 : ℤ) ≤ |x - y|

theorem square_rel {x y : ℚ} (h : Apart x y) :
    (x - y) ^ 2 * (1 - 1 / 2 ^ 53) ^ 3 ≤ rnd (rnd (x - y) * rnd (x - y)) ∧
    rnd (rnd (x - y) * rnd (x - y)) ≤ (x - y) ^ 2 * (1 + 1 / 2 ^ 53) ^ 3 ∧
    (x = y ∨ (2 : ℚ) ^ (-202 : ℤ) ≤ rnd (rnd (x - y) * rnd (x - y))) := by
  rcases h with rfl | h
  · simp [rnd_zero]
  · generalize x - y = z at h
    have ht : (0 : ℚ) < 2 ^ (-100 : ℤ) := zpow_pos (by norm_num) _
    have hz := rnd_err (x := z) (le_trans (zpow_le_zpow_right₀ (by norm_num) (by norm_num)) h)
    have a1 : |rnd z| ≤ |z| * (1 + 1 / 2 ^ 53) := by
      have := abs_add_le (rnd z - z) z
      rw [sub_add_cancel] at this; linarith
    have a2 : |z| * (1 - 1 / 2 ^ 53) ≤ |rnd z| := by
      have := abs_add_le (z - rnd z) (rnd z)
      rw [sub_add_cancel, abs_sub_comm] at this; linarith
    have hzp : 0 < |z| := lt_of_lt_of_le ht h
    have b1 : z ^ 2 * (1 - 1 / 2 ^ 53) ^ 2 ≤ rnd z * rnd z := by
      rw [← abs_mul_abs_self (rnd z), ← sq_abs z, ← mul_pow, pow_two]
      exact mul_le_mul a2 a2 (mul_nonneg hzp.le (by norm_num)) (abs_nonneg _)
    have b2 : rnd z * rnd z ≤ z ^ 2 * (1 + 1 / 2 ^ 53) ^ 2 := by
      rw [← abs_mul_abs_self (rnd z), ← sq_abs z, ← mul_pow, pow_two]
      exact mul_le_mul a1 a1 (abs_nonneg _) (mul_nonneg hzp.le (by norm_num))
    have b3 : (2 : ℚ) ^ (-201 : ℤ) ≤ rnd z * rnd z := by
      refine le_trans ?_ b1
      rw [← sq_abs z]
      have : ((2 : ℚ) ^ (-100 : ℤ)) ^ 2 ≤ |z| ^ 2 := pow_le_pow_left₀ ht.le h 2
      refine le_trans ?_ (mul_le_mul_of_nonneg_right this (by norm_num))
      norm_num
    obtain ⟨c1, c2⟩ := rnd_rel (x := rnd z * rnd z) (mul_self_nonneg _) (Or.inr (le_trans (zpow_le_zpow_right₀ (by norm_num) (by norm_num)) b3))
    refine ⟨?_, ?_, Or.inr ?_⟩
    · refine le_trans ?_ c1
      rw [pow_succ _ 2, ← mul_assoc]
      exact mul_le_mul_of_nonneg_right b1 (by norm_num)
    · refine le_trans c2 ?_
      rw [pow_succ _ 2, ← mul_assoc]
      exact mul_le_mul_of_nonneg_right b2 (by norm_num)
    · refine le_trans ?_ (le_trans (mul_le_mul_of_nonneg_right b3 (by norm_num)) c1)
      norm_num

theorem off_rel {t : Tr} (h1 : Apart t.sx t.rx) (h2 : Apart t.sy t.ry) :
    ((t.sx - t.rx) ^ 2 + (t.sy - t.ry) ^ 2) * (1 - 1 / 2 ^ 53) ^ 4 ≤ off t.sx t.sy t.rx t.ry ∧
    off t.sx t.sy t.rx t.ry ≤ ((t.sx - t.rx) ^ 2 + (t.sy - t.ry) ^ 2) * (1 + 1 / 2 ^ 53) ^ 4 := by
  obtain ⟨a1, a2, a3⟩ := square_rel h1
  obtain ⟨b1, b2, b3⟩ := square_rel h2
  unfold off
  have hp : (0 : ℚ) < 2 ^ (-202 : ℤ) := zpow_pos (by norm_num) _
  have na : 0 ≤ rnd (rnd (t.sx - t.rx) * rnd (t.sx - t.rx)) :=
    le_trans (mul_nonneg (sq_nonneg _) (by norm_num)) a1
  have nb : 0 ≤ rnd (rnd (t.sy - t.ry) * rnd (t.sy - t.ry)) :=
    le_trans (mul_nonneg (sq_nonneg _) (by norm_num)) b1
  have hs : (2 : ℚ) ^ (-1022 : ℤ) ≤ (2 : ℚ) ^ (-202 : ℤ) := zpow_le_zpow_right₀ (by norm_num) (by norm_num)
  have hq : rnd (rnd (t.sx - t.rx) * rnd (t.sx - t.rx)) + rnd (rnd (t.sy - t.ry) * rnd (t.sy - t.ry)) = 0 ∨
      (2 : ℚ) ^ (-1022 : ℤ) ≤ rnd (rnd (t.sx - t.rx) * rnd (t.sx - t.rx)) + rnd (rnd (t.sy - t.ry) * rnd (t.sy - t.ry)) := by
    rcases a3 with a3 | a3
    · rcases b3 with b3 | b3
      · left; rw [a3, b3]; simp [rnd_zero]
      · right; linarith
    · right; linarith
  obtain ⟨c1, c2⟩ := rnd_rel (add_nonneg na nb) hq
  constructor
  · refine le_trans ?_ c1
    rw [pow_succ _ 3, ← mul_assoc]
    refine mul_le_mul_of_nonneg_right ?_ (by norm_num)
    rw [add_mul]; linarith
  · refine le_trans c2 ?_
    rw [pow_succ _ 3, ← mul_assoc]
    refine mul_le_mul_of_nonneg_right ?_ (by norm_num)
    rw [add_mul]; linarith

/-- C81, any coordinates: of two traces whose squared distances differ by one part in `2^49`, the nearer one comes first in
each sort type that calculates the offset, if the keys before it are the same. -/
theorem C81_nearer_partial (ty : SortType) (a b : Tr) (ha : Apart a.sx a.rx) (ha' : Apart a.sy a.ry)
    (hb : Apart b.sx b.rx) (hb' : Apart b.sy b.ry)
    (hd : ((a.sx - a.rx) ^ 2 + (a.sy - a.ry) ^ 2) * (1 + 1 / 2 ^ 49) < (b.sx - b.rx) ^ 2 + (b.sy - b.ry) ^ 2)
    (ht : ty = 36 ∧ a.sx = b.sx ∧ a.sy = b.sy ∨ ty = 38 ∧ a.rx = b.rx ∧ a.ry = b.ry ∨
      ty = 40 ∧ a.il = b.il ∧ a.xl = b.xl ∨ ty = 42) : getComp off ty a b = true ∧ getComp off ty b a = false := by
  have h1 := (off_rel ha ha').2
  have h2 := (off_rel hb hb').1
  have hn : 0 ≤ (a.sx - a.rx) ^ 2 + (a.sy - a.ry) ^ 2 := add_nonneg (sq_nonneg _) (sq_nonneg _)
  have hlt : off a.sx a.sy a.rx a.ry < off b.sx b.sy b.rx b.ry := by
    refine lt_of_le_of_lt h1 (lt_of_lt_of_le ?_ h2)
    refine lt_of_le_of_lt ?_ (mul_lt_mul_of_pos_right hd (by norm_num))
    rw [mul_assoc]
    exact mul_le_mul_of_nonneg_left (by norm_num) hn
  rw [← Bool.not_eq_true, C26_keys, C26_keys, not_lt]
  refine (fun h => ⟨h, h.le⟩) ?_
  rcases ht with ⟨rfl, e1, e2⟩ | ⟨rfl, e1, e2⟩ | ⟨rfl, e1, e2⟩ | rfl
  · simp only [documented, lt4]
    exact Or.inr ⟨e1, Or.inr ⟨e2, Or.inl hlt⟩⟩
  · simp only [documented, lt4]
    exact Or.inr ⟨e1, Or.inr ⟨e2, Or.inl hlt⟩⟩
  · simp only [documented, lt4]
    exact Or.inr ⟨by rw [e1], Or.inr ⟨by rw [e2], Or.inl hlt⟩⟩
  · simp only [documented, lt4]
    exact Or.inl hlt

/-- Decimal places: 0.5 and 0.1 is nearer than 0.3 and 0.45. -/
example : getComp off 36 ⟨0, 0, 5 / 10, 1 / 10, 0, 0, 0, 9⟩ ⟨0, 0, 3 / 10, 45 / 100, 0, 0, 0, 1⟩ = true := by
  refine (C81_nearer_partial 36 _ _ (Or.inr ?_) (Or.inr ?_) (Or.inr ?_) (Or.inr ?_) ?_ (Or.inl ⟨rfl, ?_, ?_⟩)).1
  all_goals norm_num [abs_of_pos, abs_of_neg]

/-- C54, what recorded offsets are sorted by: those that are not negative by their value, and after all of them the
negative ones, by `2^64` plus their value, as long as this is a double (every multiple of 2048 is one). -/
theorem C54_wrapped_partial (o : OffFn) (ty : SortType) (a b : Tr)
    (ha : 0 ≤ a.roff ∧ a.roff < 2 ^ 53 ∨ a.roff < 0 ∧ -2 ^ 63 ≤ a.roff ∧ 2048 ∣ a.roff)
    (hb : 0 ≤ b.roff ∧ b.roff < 2 ^ 53 ∨ b.roff < 0 ∧ -2 ^ 63 ≤ b.roff ∧ 2048 ∣ b.roff) :
    getComp o ty a b = true ↔
      documented o (fun t => ((if t.roff < 0 then 2 ^ 64 + t.roff else t.roff : ℤ) : ℚ)) ty a <
        documented o (fun t => ((if t.roff < 0 then 2 ^ 64 + t.roff else t.roff : ℤ) : ℚ)) ty b := by
  have key : ∀ t : Tr, 0 ≤ t.roff ∧ t.roff < 2 ^ 53 ∨ t.roff < 0 ∧ -2 ^ 63 ≤ t.roff ∧ 2048 ∣ t.roff →
      readOff t = ((if t.roff < 0 then 2 ^ 64 + t.roff else t.roff : ℤ) : ℚ) := by
    rintro t (⟨h0, h1⟩ | ⟨h0, h1, k, hk⟩)
    · unfold readOff
      rw [Int.emod_eq_of_lt h0 (by omega), if_neg (by omega)]
      exact rnd_int (by rw [abs_of_nonneg h0]; exact h1)
    · unfold readOff
      have : t.roff % 2 ^ 64 = 2 ^ 64 + t.roff := by
        rw [← Int.add_emod_left, Int.emod_eq_of_lt (by omega) (by omega)]
      rw [this, if_pos h0]
      refine rnd_double ⟨2 ^ 53 + k, 11, by rw [abs_of_nonneg (by omega)]; omega, by norm_num, ?_⟩
      rw [hk]
      push_cast
      ring
  have hd : ∀ t : Tr, readOff t = ((if t.roff < 0 then 2 ^ 64 + t.roff else t.roff : ℤ) : ℚ) → documented o readOff ty t =
      documented o (fun t => ((if t.roff < 0 then 2 ^ 64 + t.roff else t.roff : ℤ) : ℚ)) ty t := by
    intro t h
    unfold documented
    simp only [h]
  rw [C26_keys, hd a (key a ha), hd b (key b hb)]

/-- The hypotheses hold for offsets of 3000 and -4096: the second comes after the first. -/
example : getComp off 43 ⟨0, 0, 0, 0, 5, 6, 3000, 3⟩ ⟨0, 0, 0, 0, 4, 4, -4096, 1⟩ = true := by
  refine (C54_wrapped_partial off 43 _ _ (Or.inl ⟨by decide, by decide⟩) (Or.inr ⟨by decide, by decide, by decide⟩)).2 ?_
  simp only [documented, lt4]
  norm_num

end Verif.Sort
