import Verif.Signal.Gain
import Verif.Props.AGC
import Mathlib.Algebra.Order.Ring.Abs
import Mathlib.Algebra.Order.Field.Rat
import Mathlib.Data.List.Sort
import Mathlib.Tactic.Ring
import Mathlib.Tactic.Linarith
import Mathlib.Tactic.FieldSimp
import Mathlib.Tactic.NormNum
import Mathlib.Analysis.Real.Sqrt

/-!
C42 (mean absolute and median gain) and C56 (root mean square gains).
-/

namespace Verif.Signal

variable {K : Type} [Field K] [LinearOrder K] [IsStrictOrderedRing K]

omit [LinearOrder K] [IsStrictOrderedRing K] in
theorem foldl_add (l : List K) (a : K) : l.foldl (· + ·) a = a + l.sum := by
  induction l generalizing a with
  | nil => simp
  | cons x l ih => rw [List.foldl_cons, ih, List.sum_cons, add_assoc]

theorem sum_abs_nonneg (l : List K) : 0 ≤ (l.map fun x => |x|).sum := by
  induction l with
  | nil => simp
  | cons x l ih => rw [List.map_cons, List.sum_cons]; exact add_nonneg (abs_nonneg x) ih

theorem abs_sum_le (l : List K) : |l.sum| ≤ (l.map fun x => |x|).sum := by
  induction l with
  | nil => simp
  | cons x l ih =>
    rw [List.sum_cons, List.map_cons, List.sum_cons]
    exact (abs_add_le _ _).trans (add_le_add_right ih _)

theorem sum_le_abs (l : List K) : l.sum ≤ (l.map fun x => |x|).sum := (le_abs_self _).trans (abs_sum_le l)

theorem sum_lt_abs (l : List K) (h : ∃ x ∈ l, x < 0) : l.sum < (l.map fun x => |x|).sum := by
  induction l with
  | nil => simp at h
  | cons x l ih =>
    rw [List.sum_cons, List.map_cons, List.sum_cons]
    obtain ⟨y, hy, hy0⟩ := h
    rcases List.mem_cons.1 hy with rfl | hy
    · exact add_lt_add_of_lt_of_le (by rw [abs_of_neg hy0]; linarith) (sum_le_abs l)
    · exact add_lt_add_of_le_of_lt (le_abs_self x) (ih ⟨y, hy, hy0⟩)

omit [LinearOrder K] [IsStrictOrderedRing K] in
theorem sum_neg (l : List K) : (l.map fun x => -x).sum = -l.sum := by
  induction l with
  | nil => simp
  | cons x l ih => rw [List.map_cons, List.sum_cons, List.sum_cons, ih]; ring

/-- With samples of both signs the sum is strictly smaller in size than the sum of the sizes. -/
theorem abs_sum_lt (l : List K) (h1 : ∃ x ∈ l, x < 0) (h2 : ∃ x ∈ l, 0 < x) : |l.sum| < (l.map fun x => |x|).sum := by
  rw [abs_lt]
  refine ⟨?_, sum_lt_abs l h1⟩
  obtain ⟨y, hy, hy0⟩ := h2
  have := sum_lt_abs (l.map fun x => -x) ⟨-y, List.mem_map.2 ⟨y, hy, rfl⟩, by linarith⟩
  rw [sum_neg, List.map_map] at this
  have he : (List.map ((fun x => |x|) ∘ fun x => -x) l) = l.map fun x => |x| := by
    apply List.map_congr_left; intro x _; simp
  rw [he] at this
  linarith

omit [IsStrictOrderedRing K] in
theorem nonZeros_pos {l : List K} (h : ∃ x ∈ l, x ≠ 0) : 0 < nonZeros l := by
  obtain ⟨x, hx, h0⟩ := h
  exact List.countP_pos_iff.2 ⟨x, hx, by simpa using h0⟩

omit [IsStrictOrderedRing K] in
theorem atLeastOne_eq {l : List K} (h : ∃ x ∈ l, x ≠ 0) : (atLeastOne (nonZeros l) : K) = (nonZeros l : K) := by
  unfold atLeastOne
  rw [Nat.max_eq_right (nonZeros_pos h)]

theorem meanAbs_eq (win : List K) (t : K) (c : Nat) (h0 : win.sum ≠ 0) :
    meanAbs win t c = .ok (t / (|win.sum| / (win.countP fun x => decide (x ≠ 0) : Nat))) := by
  have hne : ∃ x ∈ win, x ≠ 0 := by
    by_contra hc
    push Not at hc
    apply h0
    clear h0
    induction win with
    | nil => rfl
    | cons x l ih => rw [List.sum_cons, hc x (by simp), ih (fun y hy => hc y (by simp [hy])), add_zero]
  have hl : win.length > 0 := by
    obtain ⟨x, hx, _⟩ := hne
    exact List.length_pos_of_mem hx
  unfold meanAbs
  rw [if_neg (not_not.2 hl)]
  simp only [foldl_add, zero_add]
  rw [if_neg h0, atLeastOne_eq hne]
  congr 3
  by_cases hs : win.sum < 0
  · rw [if_pos hs, abs_of_neg hs]
  · rw [if_neg hs, abs_of_nonneg (not_lt.1 hs)]

/-- C42, mean (partial): in a window without samples of opposite signs and with a sample that is not zero the gain is
the target divided by the mean absolute value of the samples that are not zero.

The full claim is for every window with a sample that is not zero: `C42_mean_refuted`. -/
theorem C42_mean_partial (win : List K) (t : K) (c : Nat) (hne : ∃ x ∈ win, x ≠ 0)
    (hs : (∀ x ∈ win, 0 ≤ x) ∨ ∀ x ∈ win, x ≤ 0) :
    meanAbs win t c = .ok (t / ((win.map fun x => |x|).sum / (win.countP fun x => decide (x ≠ 0) : Nat))) := by
  have hpos : ∀ l : List K, (∀ x ∈ l, 0 ≤ x) → (l.map fun x => |x|).sum = l.sum := by
    intro l hl
    congr 1
    conv => rhs; rw [← List.map_id l]
    apply List.map_congr_left; intro x hx; exact abs_of_nonneg (hl x hx)
  have hneg : ∀ l : List K, (∀ x ∈ l, x ≤ 0) → (l.map fun x => |x|).sum = -l.sum := by
    intro l hl
    rw [← sum_neg]
    congr 1
    apply List.map_congr_left; intro x hx; exact abs_of_nonpos (hl x hx)
  have hsum : |win.sum| = (win.map fun x => |x|).sum := by
    have h0 := sum_abs_nonneg win
    rcases hs with h | h
    · rw [hpos win h] at h0 ⊢; exact abs_of_nonneg h0
    · rw [hneg win h] at h0 ⊢; rw [← abs_neg]; exact abs_of_nonneg h0
  have h0 : 0 < (win.map fun x => |x|).sum := by
    clear hsum hs hpos hneg
    induction win with
    | nil => simp at hne
    | cons x l ih =>
      rw [List.map_cons, List.sum_cons]
      obtain ⟨y, hy, hy0⟩ := hne
      rcases List.mem_cons.1 hy with rfl | hy
      · exact add_pos_of_pos_of_nonneg (abs_pos.2 hy0) (sum_abs_nonneg l)
      · exact add_pos_of_nonneg_of_pos (abs_nonneg x) (ih ⟨y, hy, hy0⟩)
  rw [meanAbs_eq win t c (by intro h; rw [h] at hsum; simp at hsum; rw [← hsum] at h0; exact lt_irrefl _ h0), hsum]

example : (∃ x ∈ [(-1 : ℚ), 0, -3], x ≠ 0) ∧ ∀ x ∈ [(-1 : ℚ), 0, -3], x ≤ 0 := by
  constructor
  · exact ⟨-1, by simp, by norm_num⟩
  · intro x hx; simp at hx; rcases hx with rfl | rfl | rfl <;> norm_num

/-- C42, mean, fails for every window with samples of both signs and every target but zero: either the samples cancel
and the call ends in a failed assertion, or the gain is too large, because the sum is taken before the absolute value. -/
theorem C42_mean_refuted (win : List K) (t : K) (c : Nat) (ht : t ≠ 0) (h1 : ∃ x ∈ win, x < 0) (h2 : ∃ x ∈ win, 0 < x) :
    meanAbs win t c = .abort ∨ ∃ r, meanAbs win t c = .ok r ∧
      |t / ((win.map fun x => |x|).sum / (win.countP fun x => decide (x ≠ 0) : Nat))| < |r| := by
  by_cases h0 : win.sum = 0
  · left
    unfold meanAbs
    obtain ⟨x, hx, _⟩ := h1
    rw [if_neg (not_not.2 (List.length_pos_of_mem hx))]
    simp only [foldl_add, zero_add, h0, ↓reduceIte]
  · right
    refine ⟨_, meanAbs_eq win t c h0, ?_⟩
    have hlt := abs_sum_lt win h1 h2
    have hn : (0 : K) < ((win.countP fun x => decide (x ≠ 0) : Nat) : K) := by
      obtain ⟨x, hx, hx0⟩ := h1
      exact_mod_cast nonZeros_pos ⟨x, hx, ne_of_lt hx0⟩
    have ha : 0 < |win.sum| := abs_pos.2 h0
    have hb : 0 < |win.sum| / ((win.countP fun x => decide (x ≠ 0) : Nat) : K) := div_pos ha hn
    have hc := div_lt_div_of_pos_right hlt hn
    rw [abs_div t, abs_div t, abs_of_pos hb, abs_of_pos (hb.trans hc)]
    exact div_lt_div_of_pos_left (abs_pos.2 ht) hb hc

example : meanAbs [3, -1, (1 : ℚ)] 6 1 = .ok 6 ∧ meanAbs [(1 : ℚ), -1] 6 1 = .abort := by decide +kernel

/-! ### Median -/

theorem countP_take_drop {A : Type} (l : List A) (k : Nat) (p : A → Bool) : l.countP p = (l.take k).countP p + (l.drop k).countP p := by
  rw [← List.countP_append, List.take_append_drop]

omit [IsStrictOrderedRing K] in
/-- C42, median (partial): for a window of odd size with median `m` (a sample with fewer than half of the samples below
it and fewer than half above it), not zero, the gain is the target divided by `m`; with median zero the call ends in a
failed assertion. There is such an `m` for each window.

The full claim is for every window: `C42_pair_refuted`, `C42_even_refuted`. -/
theorem C42_median_partial (win : List K) (t : K) (c : Nat) (hodd : win.length % 2 = 1) :
    (∃ m ∈ win, 2 * (win.countP fun x => decide (x < m)) < win.length ∧
      2 * (win.countP fun x => decide (m < x)) < win.length) ∧
    ∀ m ∈ win, 2 * (win.countP fun x => decide (x < m)) < win.length →
      2 * (win.countP fun x => decide (m < x)) < win.length →
      medianGain win t c = if m = 0 then .abort else .ok (t / m) := by
  have hperm := List.perm_insertionSort (· ≤ ·) win
  have hsort := List.pairwise_insertionSort (· ≤ ·) win
  unfold medianGain
  generalize hs : win.insertionSort (· ≤ ·) = s at hperm hsort
  have hlen : s.length = win.length := hperm.length_eq
  have hk : win.length / 2 < s.length := by omega
  simp only
  rw [if_neg (by omega), readAt_ok hk, Res.ok_bind]
  have hle : ∀ i j (hi : i < s.length) (hj : j < s.length), i ≤ j → s[i] ≤ s[j] := by
    intro i j hi hj hij
    rcases Nat.lt_or_eq_of_le hij with h | h
    · exact List.pairwise_iff_getElem.1 hsort i j hi hj h
    · subst h; exact le_refl _
  have hbelow : ∀ m : K, s[win.length / 2] < m → win.length / 2 + 1 ≤ s.countP fun x => decide (x < m) := by
    intro m hm
    rw [countP_take_drop s (win.length / 2 + 1)]
    have : (s.take (win.length / 2 + 1)).countP (fun x => decide (x < m)) = (s.take (win.length / 2 + 1)).length := by
      rw [List.countP_eq_length]
      intro x hx
      obtain ⟨i, hi, rfl⟩ := List.mem_iff_getElem.1 hx
      rw [List.length_take] at hi
      rw [List.getElem_take, decide_eq_true_eq]
      exact lt_of_le_of_lt (hle i _ (by omega) hk (by omega)) hm
    rw [this, List.length_take]
    omega
  have habove : ∀ m : K, m < s[win.length / 2] → win.length / 2 + 1 ≤ s.countP fun x => decide (m < x) := by
    intro m hm
    rw [countP_take_drop s (win.length / 2)]
    have : (s.drop (win.length / 2)).countP (fun x => decide (m < x)) = (s.drop (win.length / 2)).length := by
      rw [List.countP_eq_length]
      intro x hx
      obtain ⟨i, hi, rfl⟩ := List.mem_iff_getElem.1 hx
      rw [List.length_drop] at hi
      rw [List.getElem_drop, decide_eq_true_eq]
      exact lt_of_lt_of_le hm (hle _ _ hk (by omega) (by omega))
    rw [this, List.length_drop]
    omega
  constructor
  · refine ⟨s[win.length / 2], hperm.mem_iff.1 (List.getElem_mem _), ?_, ?_⟩
    · rw [← hperm.countP_eq, countP_take_drop s (win.length / 2)]
      have h1 : (s.drop (win.length / 2)).countP (fun x => decide (x < s[win.length / 2])) = 0 := by
        rw [List.countP_eq_zero]
        intro x hx
        obtain ⟨i, hi, rfl⟩ := List.mem_iff_getElem.1 hx
        rw [List.length_drop] at hi
        rw [List.getElem_drop, decide_eq_true_eq]
        exact not_lt.2 (hle _ _ hk (by omega) (by omega))
      have h2 := List.countP_le_length (p := fun x => decide (x < s[win.length / 2])) (l := s.take (win.length / 2))
      rw [List.length_take] at h2
      omega
    · rw [← hperm.countP_eq, countP_take_drop s (win.length / 2 + 1)]
      have h1 : (s.take (win.length / 2 + 1)).countP (fun x => decide (s[win.length / 2] < x)) = 0 := by
        rw [List.countP_eq_zero]
        intro x hx
        obtain ⟨i, hi, rfl⟩ := List.mem_iff_getElem.1 hx
        rw [List.length_take] at hi
        rw [List.getElem_take, decide_eq_true_eq]
        exact not_lt.2 (hle _ _ (by omega) hk (by omega))
      have h2 := List.countP_le_length (p := fun x => decide (s[win.length / 2] < x)) (l := s.drop (win.length / 2 + 1))
      rw [List.length_drop] at h2
      omega
  · intro m _ h1 h2
    have hm : s[win.length / 2] = m := by
      rcases lt_trichotomy s[win.length / 2] m with h | h | h
      · have := hbelow m h
        rw [hperm.countP_eq] at this
        omega
      · exact h
      · have := habove m h
        rw [hperm.countP_eq] at this
        omega
    rw [hm]

example : medianGain [5, 1, (2 : ℚ)] 6 1 = .ok 3 := by decide +kernel

omit [IsStrictOrderedRing K] in
/-- C42, median, fails for every window of two samples: a place behind the sorted samples is read. -/
theorem C42_pair_refuted (a b t : K) (c : Nat) : medianGain [a, b] t c = .ub := by
  unfold medianGain
  simp only
  have hl : ([a, b].insertionSort (· ≤ ·)).length = 2 := List.length_insertionSort _ _
  simp only [List.length_cons, List.length_nil]
  rw [if_pos (by decide), readAt_ok (by rw [hl]; decide), Res.ok_bind, readAt_ub (by rw [hl])]
  rfl

/-- C42, median, fails for every window of an even number of increasing positive samples, at least four, and every
target but zero: the gain is not the target over the median (the mean of the two middle samples); it is too small. -/
theorem C42_even_refuted (win : List K) (t : K) (c : Nat) (ht : t ≠ 0) (heven : win.length % 2 = 0)
    (h4 : 4 ≤ win.length) (hinc : win.Pairwise (· < ·)) (hpos : ∀ x ∈ win, 0 < x) :
    ∃ r, medianGain win t c = .ok r ∧
      |r| < |t / ((win[win.length / 2 - 1]'(by omega) + win[win.length / 2]'(by omega)) / 2)| := by
  have hs : win.insertionSort (· ≤ ·) = win := List.Pairwise.insertionSort_eq (hinc.imp le_of_lt)
  unfold medianGain
  simp only [hs]
  rw [if_pos heven, readAt_ok (by omega), Res.ok_bind, readAt_ok (by omega), Res.ok_bind]
  have h1 : win[win.length / 2 - 1] < win[win.length / 2 + 1] :=
    List.pairwise_iff_getElem.1 hinc _ _ (by omega) (by omega) (by omega)
  have p0 : 0 < win[win.length / 2 - 1] := hpos _ (List.getElem_mem _)
  have p1 : 0 < win[win.length / 2] := hpos _ (List.getElem_mem _)
  have p2 : 0 < win[win.length / 2 + 1] := hpos _ (List.getElem_mem _)
  rw [if_neg (by apply ne_of_gt; linarith)]
  refine ⟨_, rfl, ?_⟩
  rw [abs_div t, abs_div t, abs_of_pos (show 0 < (win[win.length / 2] + win[win.length / 2 + 1]) / 2 by linarith),
    abs_of_pos (show 0 < (win[win.length / 2 - 1] + win[win.length / 2]) / 2 by linarith)]
  exact div_lt_div_of_pos_left (abs_pos.2 ht) (by linarith) (by linarith)

example : medianGain [1, 2, 3, (5 : ℚ)] 4 1 = .ok 1 := by decide +kernel

/-! ### Root mean square -/

/-- What is asked of the square root. -/
structure IsSqrt (sqrt : K → K) : Prop where
  nonneg : ∀ x, 0 ≤ x → 0 ≤ sqrt x
  sq : ∀ x, 0 ≤ x → sqrt x * sqrt x = x

omit [LinearOrder K] [IsStrictOrderedRing K] in
theorem foldl_sq (l : List K) (a : K) : l.foldl (fun amp x => amp + x * x) a = a + (l.map fun x => x * x).sum := by
  induction l generalizing a with
  | nil => simp
  | cons x l ih => rw [List.foldl_cons, ih, List.map_cons, List.sum_cons, add_assoc]

theorem sum_sq_nonneg (l : List K) : 0 ≤ (l.map fun x => x * x).sum := by
  induction l with
  | nil => simp
  | cons x l ih => rw [List.map_cons, List.sum_cons]; exact add_nonneg (mul_self_nonneg x) ih

theorem sum_sq_pos (l : List K) (h : ∃ x ∈ l, x ≠ 0) : 0 < (l.map fun x => x * x).sum := by
  induction l with
  | nil => simp at h
  | cons x l ih =>
    rw [List.map_cons, List.sum_cons]
    obtain ⟨y, hy, hy0⟩ := h
    rcases List.mem_cons.1 hy with rfl | hy
    · exact add_pos_of_pos_of_nonneg (mul_self_pos.2 hy0) (sum_sq_nonneg l)
    · exact add_pos_of_nonneg_of_pos (mul_self_nonneg x) (ih ⟨y, hy, hy0⟩)

theorem gain_sq {sqrt : K → K} (hs : IsSqrt sqrt) (t a : K) (ha : 0 < a) :
    (t / sqrt a) * (t / sqrt a) * a = t * t ∧ (0 ≤ t → 0 ≤ t / sqrt a) := by
  have h := hs.sq a ha.le
  have hne : sqrt a ≠ 0 := by intro h0; rw [h0] at h; simp at h; exact absurd h.symm (ne_of_gt ha)
  constructor
  · conv => lhs; rw [← h]
    rw [h]
    have : t / sqrt a * (t / sqrt a) * (sqrt a * sqrt a) = t * t := by field_simp
    rw [h] at this
    exact this
  · intro ht; exact div_nonneg ht (hs.nonneg a ha.le)

/-- C56, rectangular (partial): for every window with a sample that is not zero, scaling the window by the gain gives
samples whose mean square over those not zero is the square of the target, and the gain has the sign of the target.

The full claim is for every window: `C56_zero_refuted`. -/
theorem C56_rectangular_partial (sqrt : K → K) (hs : IsSqrt sqrt) (win : List K) (t : K) (c : Nat) (ht : 0 ≤ t)
    (hne : ∃ x ∈ win, x ≠ 0) :
    ∃ g, rectangularRMS sqrt win t c = .ok g ∧ 0 ≤ g ∧
      (win.map fun x => (g * x) * (g * x)).sum / (win.countP fun x => decide (x ≠ 0) : Nat) = t * t := by
  have hp := sum_sq_pos win hne
  unfold rectangularRMS
  simp only [foldl_sq, zero_add]
  rw [if_neg (ne_of_gt hp), atLeastOne_eq hne]
  have hn : (0 : K) < (nonZeros win : K) := by exact_mod_cast nonZeros_pos hne
  obtain ⟨h1, h2⟩ := gain_sq hs t ((win.map fun x => x * x).sum / (nonZeros win : K)) (div_pos hp hn)
  refine ⟨_, rfl, h2 ht, ?_⟩
  generalize t / sqrt ((win.map fun x => x * x).sum / (nonZeros win : K)) = g at h1 h2
  have : (win.map fun x => (g * x) * (g * x)).sum = g * g * (win.map fun x => x * x).sum := by
    clear h1 h2 hp hn hne
    induction win with
    | nil => simp
    | cons x l ih => rw [List.map_cons, List.sum_cons, ih, List.map_cons, List.sum_cons]; ring
  rw [this, ← h1]
  show g * g * _ / (nonZeros win : K) = _
  rw [mul_div_assoc]

/-- The square root of the real numbers is one; the window is not all zero. -/
example : IsSqrt Real.sqrt ∧ ∃ x ∈ [(0 : ℝ), 3], x ≠ 0 :=
  ⟨⟨fun x _ => Real.sqrt_nonneg x, fun x h => Real.mul_self_sqrt h⟩, 3, by simp, by norm_num⟩

/-- Weight of sample `j` of a triangular window around `c` with half-width `h`. -/
def weight (c h j : Nat) : K := 1 - |(j : K) - (c : K)| / (h : K)

omit [LinearOrder K] [IsStrictOrderedRing K] in
theorem sum_range_succ (f : Nat → K) (n : Nat) : ((List.range (n + 1)).map f).sum = ((List.range n).map f).sum + f n := by
  rw [List.range_succ, List.map_append, List.sum_append]
  simp

/-- C56, triangular (partial): for every window of at least two samples with a sample that is not zero and that does
not lie at the rim of the triangle, scaling the window by the gain gives samples whose mean weighted square over those
not zero is the square of the target. The triangle is one at the centre and zero at the farther end of the window.

The full claim is for every window: `C56_zero_refuted` and `C56_single_refuted`. -/
theorem C56_triangular_partial (sqrt : K → K) (hs : IsSqrt sqrt) (win : List K) (t : K) (c : Nat) (ht : 0 ≤ t)
    (hc : c < win.length) (h2 : 2 ≤ win.length)
    (hne : ∃ j x, win[j]? = some x ∧ x ≠ 0 ∧ (weight c (max c (win.length - 1 - c)) j : K) ≠ 0) :
    ∃ g, triangularRMS sqrt win t c = .ok (some g) ∧ 0 ≤ g ∧
      ((List.range win.length).map fun j => (g * win.getD j 0 * weight c (max c (win.length - 1 - c)) j) *
        (g * win.getD j 0 * weight c (max c (win.length - 1 - c)) j)).sum /
        (win.countP fun x => decide (x ≠ 0) : Nat) = t * t := by
  generalize hh : max c (win.length - 1 - c) = h at hne ⊢
  have hpos : 0 < h := by omega
  let f : Nat → K := fun j => (win.getD j 0 * weight c h j) * (win.getD j 0 * weight c h j)
  have hf0 : ∀ j, 0 ≤ f j := fun j => mul_self_nonneg _
  have hsum : ∀ n, 0 ≤ ((List.range n).map f).sum := by
    intro n
    induction n with
    | zero => simp
    | succ n ih => rw [sum_range_succ]; exact add_nonneg ih (hf0 n)
  have hmono : ∀ n j, j < n → f j ≤ ((List.range n).map f).sum := by
    intro n j hj
    induction n with
    | zero => omega
    | succ n ih =>
      rw [sum_range_succ]
      by_cases hjn : j = n
      · subst hjn; linarith [hsum j]
      · linarith [ih (by omega), hf0 n]
  have hnz : ∃ x ∈ win, x ≠ 0 := by
    obtain ⟨j, x, h1, h2, _⟩ := hne
    exact ⟨x, List.mem_of_getElem? h1, h2⟩
  have hp : 0 < ((List.range win.length).map f).sum := by
    obtain ⟨j, x, h1, h2, h3⟩ := hne
    have hj : j < win.length := (List.getElem?_eq_some_iff.1 h1).1
    refine lt_of_lt_of_le ?_ (hmono win.length j hj)
    have : win.getD j 0 = x := by rw [List.getD_eq_getElem?_getD, h1]; rfl
    show 0 < (win.getD j 0 * weight c h j) * (win.getD j 0 * weight c h j)
    rw [this]
    exact mul_self_pos.2 (mul_ne_zero h2 h3)
  obtain ⟨amp, e, ha⟩ := forRange_inv (fun j amp => do
      let x ← readAt win j
      let dist := if j > c then j - c else c - j
      let scaling : K := 1 - (dist : K) / (h : K)
      let y := x * scaling
      .ok (amp + y * y)) (fun k amp => amp = ((List.range k).map f).sum) win.length 0 (0 : K) (by simp) (by
    intro j s _ hj hsj
    have hj' : j < win.length := by omega
    refine ⟨s + f j, ?_, by rw [sum_range_succ, hsj]⟩
    have hw : (1 : K) - ((if j > c then j - c else c - j : Nat) : K) / (h : K) = weight c h j := by
      unfold weight
      congr 2
      by_cases hjc : j > c
      · rw [if_pos hjc, Nat.cast_sub hjc.le, abs_of_nonneg]
        have : (c : K) ≤ (j : K) := by exact_mod_cast hjc.le
        linarith
      · have hcj : j ≤ c := by omega
        rw [if_neg hjc, Nat.cast_sub hcj, abs_of_nonpos]
        · ring
        · have : (j : K) ≤ (c : K) := by exact_mod_cast hcj
          linarith
    rw [readAt_ok hj', Res.ok_bind]
    simp only [hw]
    show _ = Res.ok (s + (win.getD j 0 * weight c h j) * (win.getD j 0 * weight c h j))
    rw [show win.getD j 0 = win[j] by rw [List.getD_eq_getElem?_getD, List.getElem?_eq_getElem hj']; rfl])
  rw [Nat.zero_add] at ha
  have hn : (0 : K) < (nonZeros win : K) := by exact_mod_cast nonZeros_pos hnz
  obtain ⟨g1, g2⟩ := gain_sq hs t (((List.range win.length).map f).sum / (nonZeros win : K)) (div_pos hp hn)
  refine ⟨t / sqrt (((List.range win.length).map f).sum / (nonZeros win : K)), ?_, g2 ht, ?_⟩
  · unfold triangularRMS
    simp only [hh]
    rw [if_neg (by omega), if_neg (by omega), if_neg (by omega), e, Res.ok_bind]
    rw [if_neg (by rw [ha]; exact ne_of_gt hp), atLeastOne_eq hnz, ha]
  · generalize t / sqrt (((List.range win.length).map f).sum / (nonZeros win : K)) = g at g1 g2
    have : ∀ n, ((List.range n).map fun j => (g * win.getD j 0 * weight c h j) * (g * win.getD j 0 * weight c h j)).sum =
        g * g * ((List.range n).map f).sum := by
      intro n
      induction n with
      | zero => simp
      | succ n ih =>
        rw [sum_range_succ, sum_range_succ, ih]
        show _ + _ = g * g * (_ + (win.getD n 0 * weight c h n) * (win.getD n 0 * weight c h n))
        ring
    rw [this, ← g1]
    show g * g * _ / (nonZeros win : K) = _
    rw [mul_div_assoc]

example : ∃ j x, [(0 : ℚ), 3, 1][j]? = some x ∧ x ≠ 0 ∧ (weight 1 (max 1 (3 - 1 - 1)) j : ℚ) ≠ 0 :=
  ⟨1, 3, rfl, by norm_num, by norm_num [weight]⟩

omit [IsStrictOrderedRing K] in
/-- C56 fails for every window of zeros (a muted stretch of a trace): both calls end in a failed assertion. -/
theorem C56_zero_refuted (sqrt : K → K) (n c : Nat) (t : K) (hc : c < n) (hn : 2 ≤ n) :
    rectangularRMS sqrt (List.replicate n 0) t c = .abort ∧ triangularRMS sqrt (List.replicate n 0) t c = .abort := by
  constructor
  · unfold rectangularRMS
    have : ∀ n, (List.replicate n (0 : K)).foldl (fun amp x => amp + x * x) 0 = 0 := by
      intro n
      induction n with
      | zero => rfl
      | succ n ih => rw [List.replicate_succ, List.foldl_cons]; simpa using ih
    simp only [this, ↓reduceIte]
  · unfold triangularRMS
    simp only [List.length_replicate]
    rw [if_neg (by omega), if_neg (by omega), if_neg (by omega)]
    obtain ⟨amp, e, ha⟩ := forRange_inv (fun j amp => do
        let x ← readAt (List.replicate n (0 : K)) j
        let dist := if j > c then j - c else c - j
        let scaling : K := 1 - (dist : K) / ((max c (n - 1 - c) : Nat) : K)
        let y := x * scaling
        .ok (amp + y * y)) (fun _ amp => amp = 0) n 0 (0 : K) rfl (by
      intro j s _ hj hs
      rw [readAt_ok (by simp; omega), Res.ok_bind]
      exact ⟨_, rfl, by simp [hs]⟩)
    rw [e, Res.ok_bind, if_pos ha]

omit [IsStrictOrderedRing K] in
/-- C56 fails for every window of one sample, which gain control uses for the sizes 0 and 1: the triangular gain is not
a number. -/
theorem C56_single_refuted (sqrt : K → K) (x t : K) : triangularRMS sqrt [x] t 0 = .ok none := rfl

omit [Field K] [LinearOrder K] [IsStrictOrderedRing K] in
/-- In gain control every window, clipped or not, has the same triangle: its half-width is that of the whole window. -/
theorem C56_clipped (s : List K) (w j : Nat) (hw : 2 * (w / 2) + 1 < s.length) (hj : j < s.length) :
    let win := (s.take (min s.length (j + w / 2 + 1))).drop (j - w / 2)
    let c := min j (w / 2)
    c < win.length ∧ max c (win.length - 1 - c) = w / 2 ∧ win[c]? = s[j]? := by
  simp only [List.length_drop, List.length_take]
  refine ⟨by omega, by omega, ?_⟩
  rw [List.getElem?_drop, List.getElem?_take_of_lt (by omega)]
  congr 1
  omega

example : 2 * (3 / 2) + 1 < [(1 : ℚ), 2, 3, 4].length ∧ 0 < [(1 : ℚ), 2, 3, 4].length := by decide

end Verif.Signal
