import Verif.Scalar.Lemmas
import Verif.Props.Param
/-!
# C14, C15: coordinate scalars
-/
namespace Verif.Scalar
open Verif.FP Verif.Params Verif.Rules

/-! ## C14 -/

/-- **C14** (part), choice: within the range of 32-bit integers times 10^4 the
scalar chosen is an accepted power of ten.  Missing from the full statement:
larger values, for which it is 0 (`C14_power_refuted`). -/
theorem C14_power_partial (v : ℚ) (h : InI32 ((trunc v).tdiv 10000)) :
    ∃ s, findScalar v = .ok s ∧ Accepted s := by
  have h1 := Int.mul_tdiv_add_tmod (trunc v) 10000
  have h2 := Int.tmod_lt_of_pos (trunc v) (by norm_num : (0 : ℤ) < 10000)
  have h3 := Int.lt_tmod_of_pos (trunc v) (by norm_num : (0 : ℤ) < 10000)
  have hi : InI64 (trunc v) := by unfold InI32 at h; unfold InI64; omega
  unfold findScalar
  simp only [if_pos hi]
  by_cases h32 : InI32 (trunc v)
  · rw [if_pos h32]
    refine ⟨_, rfl, ?_⟩
    rcases smallLoop_spec v (trunc v) (lround (rnd (v * 10000)) - trunc v * 10000) [1, 10, 100, 1000] with h | ⟨i, hi, _, h, _⟩
    · rw [h]; exact Or.inl rfl
    · rw [h]; exact (accepted_cases hi).1
  · rw [if_neg h32]
    refine ⟨_, rfl, ?_⟩
    unfold bigLoop bigLoop bigLoop bigLoop
    rw [if_pos h]
    split
    · simp [Accepted]
    · split
      · simp [Accepted]
      · split
        · simp [Accepted]
        · simp [Accepted]

/-- **C14** refuted: beyond the reach of every scalar, 0 is written. -/
theorem C14_power_refuted : findScalar (21474836480000 : ℚ) = .ok 0#16 := by
  have ht : trunc (21474836480000 : ℚ) = 21474836480000 := by
    unfold trunc; norm_num
  unfold findScalar
  simp only [ht]
  decide

/-- **C14** (part), exactness: a coordinate with at most four decimals whose
scaled value fits 32 bits is represented exactly in the header: scalar times
stored integer is the coordinate.  (`v` is the double nearest to the decimal
`k / 10^4`.)  Reading multiplies by the double nearest to the scalar, so the double
read is correct to 2 roundings, see the last conjunct and
`C14_readback_refuted`. -/
theorem C14_exact (k d M : ℤ) (hd : d = 1 ∨ d = 10 ∨ d = 100 ∨ d = 1000 ∨ d = 10000)
    (hM : InI32 M) (hk : (k : ℚ) / 10000 = M / d) :
    ∃ s n, findScalar (rnd (k / 10000)) = .ok s ∧ Accepted s ∧ encode (rnd (k / 10000)) s = .ok n ∧
      unit s * n.toInt = k / 10000 ∧ |decode s n - k / 10000| ≤ |(k : ℚ) / 10000| / 2 ^ 51 := by
  have hk' : k * d = M * 10000 := by
    have hd0 : (d : ℚ) ≠ 0 := by rcases hd with rfl | rfl | rfl | rfl | rfl <;> norm_num
    field_simp at hk
    have : k * d = 10000 * M := by exact_mod_cast hk
    omega
  have hkb : |k| < 2 ^ 60 := by
    obtain ⟨a, b⟩ := hM
    rw [abs_lt]
    rcases hd with rfl | rfl | rfl | rfl | rfl <;> omega
  have hn := near_rnd k hkb
  obtain ⟨s, N, h1, h2, h3, h4, -⟩ := find_decimal hn hd hM hk'
  have h5 : |N| < 2 ^ 46 := by obtain ⟨a, b⟩ := h4; rw [abs_lt]; omega
  refine ⟨s, BitVec.ofInt 32 N, h2, h1, ?_, ?_, ?_⟩
  · unfold encode
    simp only [near_encode hn h5 h3]
    rw [if_pos ⟨by have := h4.1; omega, by have := h4.2; omega⟩]
  · rw [ofInt32_toInt h4]; exact h3
  · unfold decode
    rw [ofInt32_toInt h4, ← h3]
    exact mul_err N s h4

/-- 1234.56, and a value using all 32 bits. -/
example : (12345600 : ℚ) / 10000 = 123456 / 100 ∧ InI32 123456 ∧
    (2147483647 : ℚ) / 10000 = 2147483647 / 10000 ∧ InI32 2147483647 := by
  refine ⟨by norm_num, by decide, by norm_num, by decide⟩

theorem rnd_tie {x : ℚ} (n E : ℤ) (hE : -1022 ≤ E) (h1 : (2 : ℚ) ^ E ≤ |x|) (h2 : |x| < 2 ^ (E + 1))
    (h3 : roundEven (x / 2 ^ (E - 52)) = n) : rnd x = n * 2 ^ (E - 52) := by
  have hx : x ≠ 0 := by
    intro h0; rw [h0, abs_zero] at h1; exact absurd h1 (not_le.mpr (two_zpow_pos _))
  have hlog : Int.log 2 |x| = E := by
    have a := log_le hx
    have b := lt_log (x := x)
    have c := (zpow_lt_zpow_iff_right₀ (by norm_num : (1 : ℚ) < 2)).mp (lt_of_le_of_lt a h2)
    have d := (zpow_lt_zpow_iff_right₀ (by norm_num : (1 : ℚ) < 2)).mp (lt_of_le_of_lt h1 b)
    omega
  have he : ulpExp x = E - 52 := by unfold ulpExp; rw [hlog]; omega
  rw [rnd_of_ne hx, he, h3]

theorem rnd_tenth : rnd (1 / 10) = 7205759403792794 * 2 ^ (-56 : ℤ) := by
  have := rnd_eval (x := 1 / 10) 7205759403792794 (-4) (by norm_num)
    (by rw [abs_of_pos (by norm_num)]; norm_num) (by rw [abs_of_pos (by norm_num)]; norm_num)
    (by norm_num [abs_lt])
  exact_mod_cast this

/-- **C14** refuted as read back: 0.3 is stored exactly (scalar -10, integer 3) but
reads as 0.30000000000000004. -/
theorem C14_readback_refuted :
    decode (BitVec.ofInt 16 (-10)) 3#32 ≠ rnd (3 / 10) ∧
    findScalar (rnd ((3000 : ℤ) / 10000)) = .ok (BitVec.ofInt 16 (-10)) ∧
    encode (rnd ((3000 : ℤ) / 10000)) (BitVec.ofInt 16 (-10)) = .ok 3#32 := by
  refine ⟨?_, ?_, ?_⟩
  · have hp : parseScalar (BitVec.ofInt 16 (-10)) = rnd (1 / 10) := by
      have : (BitVec.ofInt 16 (-10)).toInt = -10 := by decide
      unfold parseScalar
      rw [this]
      norm_num
    have h3 : rnd (3 / 10) = 5404319552844595 * 2 ^ (-54 : ℤ) := by
      have := rnd_eval (x := 3 / 10) 5404319552844595 (-2) (by norm_num)
        (by rw [abs_of_pos (by norm_num)]; norm_num) (by rw [abs_of_pos (by norm_num)]; norm_num)
        (by norm_num [abs_lt])
      exact_mod_cast this
    have h4 : rnd (7205759403792794 * 2 ^ (-56 : ℤ) * 3) = 5404319552844596 * 2 ^ (-54 : ℤ) := by
      have := rnd_tie (x := 7205759403792794 * 2 ^ (-56 : ℤ) * 3) 5404319552844596 (-2) (by norm_num)
        (by rw [abs_of_pos (by positivity)]; norm_num) (by rw [abs_of_pos (by positivity)]; norm_num)
        (by unfold roundEven; norm_num)
      exact_mod_cast this
    unfold decode
    have : (3#32).toInt = 3 := by decide
    rw [hp, rnd_tenth, this]
    push_cast
    rw [h4, h3]
    norm_num
  all_goals
    have hn := near_rnd 3000 (by norm_num)
    have hu : unit (BitVec.ofInt 16 (-10)) * ((3 : ℤ) : ℚ) = ((3000 : ℤ) : ℚ) / 10000 := by
      rw [unit_neg10]; norm_num
  · obtain ⟨s, N, h1, h2, h3, h4, -⟩ := find_decimal hn (d := 10) (M := 3) (by simp) (by decide) (by norm_num)
    have ht := near_trunc hn (by norm_num)
    have hg := near_digits hn (by norm_num)
    have t := test_ok (D := 10) hn (by decide) hu (by norm_num) (by rw [unit_neg10]; norm_num)
    unfold findScalar
    simp only [ht, hg]
    rw [if_pos (by decide), if_pos (by decide)]
    have e1 : Int.tmod (3000 - Int.tdiv 3000 10000 * 10000) 10 = 0 := by decide
    have e2 : Int.tmod (3000 - Int.tdiv 3000 10000 * 10000) 100 = 0 := by decide
    have e3 : Int.tmod (3000 - Int.tdiv 3000 10000 * 10000) 1000 = 0 := by decide
    have e4 : Int.tmod (3000 - Int.tdiv 3000 10000 * 10000) 10000 ≠ 0 := by decide
    have q10 : Int.tdiv (-10000) 1000 = -10 := by decide
    generalize Int.tdiv 3000 10000 = ip at *
    generalize rnd (((3000 : ℤ) : ℚ) / 10000) = v at *
    simp only [BitVec.reduceOfInt, Int.reduceNeg] at t
    simp [smallLoop, e1, e2, e3, e4, q10, t]
  · unfold encode
    simp only [near_encode hn (M := 3) (by norm_num) hu]
    rfl

/-- **C14** (part): *every* coordinate up to 2^31 - 1 in magnitude, decimal or not,
gets an accepted scalar with which it fits 32 bits, and the stored value is within half a
unit (up to rounding of the division). -/
theorem C14_fits (v : ℚ) (h : |v| ≤ 2 ^ 31 - 1) :
    ∃ s n, findScalar v = .ok s ∧ Accepted s ∧ encode v s = .ok n ∧
      |unit s * n.toInt - v| ≤ unit s / 2 + (|v| + unit s) / 2 ^ 50 := by
  have ht := trunc_bounds (v := v) (B := 2 ^ 31 - 1) (by refine le_trans h ?_; norm_num)
  rw [abs_le] at ht
  have h32 : InI32 (trunc v) := ⟨by omega, by omega⟩
  have h64 : InI64 (trunc v) := ⟨by omega, by omega⟩
  unfold findScalar
  simp only [if_pos h32, if_pos h64]
  rcases smallLoop_spec v (trunc v) (lround (rnd (v * 10000)) - trunc v * 10000) [1, 10, 100, 1000] with
    hs | ⟨i, hi, _, hs, hL⟩
  · rw [hs]
    obtain ⟨n, h1, h2⟩ := encode_err (v := v) (s := 1#16) (by rw [unit_one, div_one]; exact h)
    exact ⟨_, n, rfl, Or.inl rfl, h1, h2⟩
  · rw [hs]
    obtain ⟨ha, _, D, hD1, hD2, hu, hD⟩ := accepted_cases hi
    generalize BitVec.ofInt 16 (Int.tdiv (-10000) i) = s at *
    rw [hD] at hL
    have hfit := test_fits (le_trans h (by norm_num)) hD1 hD2 hu hL
    refine ⟨s, BitVec.ofInt 32 (lround (rnd (v / parseScalar s))), rfl, ha, ?_, ?_⟩
    · unfold encode
      simp only
      rw [if_pos ⟨by have := hfit.1; omega, by have := hfit.2; omega⟩]
    · rw [ofInt32_toInt hfit]
      have h1 := lround_err (rnd (v / parseScalar s))
      have h2 := div_err v s
      have hp := unit_pos s
      have h3 := abs_sub_le ((lround (rnd (v / parseScalar s)) : ℤ) : ℚ) (rnd (v / parseScalar s)) (v / unit s)
      generalize lround (rnd (v / parseScalar s)) = L at *
      have e : unit s * L - v = unit s * (L - v / unit s) := by field_simp
      rw [e, abs_mul, abs_of_pos hp]
      have e2 : |v| = unit s * |v / unit s| := by rw [abs_div, abs_of_pos hp]; field_simp
      rw [e2]
      have h4 : |(L : ℚ) - v / unit s| ≤ 1 / 2 + |v / unit s| / 2 ^ 51 + 1 / 2 ^ 100 := by linarith
      have h5 := mul_le_mul_of_nonneg_left h4 (le_of_lt hp)
      have h00 : 0 ≤ unit s * |v / unit s| := by positivity
      refine le_trans h5 ?_
      have : (1 : ℚ) / 2 ^ 100 ≤ 1 / 2 ^ 50 := by norm_num
      nlinarith

/-- A value with many decimals. -/
example : |(1234567 + 1 / 3 : ℚ)| ≤ 2 ^ 31 - 1 := by norm_num [abs_le]

/-- **C14** (part), large values: the scalar is the smallest power of ten up to
10^4 that brings the integer part into 32 bits. -/
theorem C14_large_partial (v : ℚ) (h : ¬ InI32 (trunc v)) (h' : InI32 ((trunc v).tdiv 10000)) :
    ∃ s j, findScalar v = .ok s ∧ 1 ≤ j ∧ j ≤ 4 ∧ s.toInt = 10 ^ j ∧ InI32 ((trunc v).tdiv (10 ^ j)) ∧
      ∀ i < j, ¬ InI32 ((trunc v).tdiv (10 ^ i)) := by
  have h1 := Int.mul_tdiv_add_tmod (trunc v) 10000
  have h2 := Int.tmod_lt_of_pos (trunc v) (by norm_num : (0 : ℤ) < 10000)
  have h3 := Int.lt_tmod_of_pos (trunc v) (by norm_num : (0 : ℤ) < 10000)
  have hi : InI64 (trunc v) := by unfold InI32 at h'; unfold InI64; omega
  unfold findScalar
  simp only [if_pos hi, if_neg h]
  have h0 : ¬ InI32 ((trunc v).tdiv (10 ^ 0)) := by simpa using h
  unfold bigLoop bigLoop bigLoop bigLoop
  by_cases c1 : InI32 ((trunc v).tdiv 10)
  · rw [if_pos c1]
    refine ⟨_, 1, rfl, by norm_num, by norm_num, by decide, by simpa using c1, ?_⟩
    intro i hi
    have : i = 0 := by omega
    subst this; exact h0
  · rw [if_neg c1]
    have c1' : ¬ InI32 ((trunc v).tdiv (10 ^ 1)) := by simpa using c1
    by_cases c2 : InI32 ((trunc v).tdiv 100)
    · rw [if_pos c2]
      refine ⟨_, 2, rfl, by norm_num, by norm_num, by decide, by simpa using c2, ?_⟩
      intro i hi
      have : i = 0 ∨ i = 1 := by omega
      rcases this with rfl | rfl <;> assumption
    · rw [if_neg c2]
      have c2' : ¬ InI32 ((trunc v).tdiv (10 ^ 2)) := by simpa using c2
      by_cases c3 : InI32 ((trunc v).tdiv 1000)
      · rw [if_pos c3]
        refine ⟨_, 3, rfl, by norm_num, by norm_num, by decide, by simpa using c3, ?_⟩
        intro i hi
        have : i = 0 ∨ i = 1 ∨ i = 2 := by omega
        rcases this with rfl | rfl | rfl <;> assumption
      · rw [if_neg c3, if_pos h']
        have c3' : ¬ InI32 ((trunc v).tdiv (10 ^ 3)) := by simpa using c3
        refine ⟨_, 4, rfl, by norm_num, by norm_num, by decide, by simpa using h', ?_⟩
        intro i hi
        have : i = 0 ∨ i = 1 ∨ i = 2 ∨ i = 3 := by omega
        rcases this with rfl | rfl | rfl | rfl <;> assumption

example : ¬ InI32 (trunc (5000000000 : ℚ)) ∧ InI32 ((trunc (5000000000 : ℚ)).tdiv 10000) := by
  have : trunc (5000000000 : ℚ) = 5000000000 := by unfold trunc; norm_num
  rw [this]; decide

/-- **C14** refuted at the edge: for 21474836475 the scalar 10 is chosen because the
truncated quotient fits, but the rounded quotient does not: the header holds
-2147483648. -/
theorem C14_edge_refuted :
    findScalar (21474836475 : ℚ) = .ok 10#16 ∧
    ∃ n, encode (21474836475 : ℚ) 10#16 = .ok n ∧ n.toInt = -2147483648 := by
  have ht : trunc (21474836475 : ℚ) = 21474836475 := by unfold trunc; norm_num
  refine ⟨?_, ?_⟩
  · unfold findScalar
    simp only [ht]
    decide
  · have hp : parseScalar 10#16 = 10 := by
      have : (10#16).toInt = 10 := by decide
      simp [parseScalar, this]
    have hr : rnd ((21474836475 : ℚ) / 10) = 4294967295 / 2 := by
      rw [show (21474836475 : ℚ) / 10 = 4294967295 / 2 by norm_num]
      apply rnd_double
      exact ⟨4294967295, -1, by norm_num, by norm_num, by norm_num⟩
    have hl : lround (4294967295 / 2 : ℚ) = 2147483648 := by unfold lround; norm_num
    refine ⟨BitVec.ofInt 32 2147483648, ?_, by decide⟩
    unfold encode
    simp only [hp, hr, hl]
    rw [if_pos (by decide)]

/-! ## C15 -/

theorem joinScal_int (a b : BitVec 16) :
    (joinScal a b).toInt = if a.toInt > 1 ∨ b.toInt > 1 then max a.toInt b.toInt else min a.toInt b.toInt := by
  unfold joinScal
  split
  · split <;> omega
  · split <;> omega

/-- The scalar joined over a group, in whatever order the rule's map is
traversed. -/
theorem fold_spec {F : Type} (fs : F → BitVec 16) (p : Param F) (row : Nat) (tr : Nat) (es : List Entry) :
    ∀ a : BitVec 16,
    ((scalFold fs p row es tr a).toInt ≤ 1 →
      (scalFold fs p row es tr a).toInt ≤ a.toInt ∧ a.toInt ≤ 1 ∧
      ∀ e ∈ es, e.scalLoc = tr → (scalFold fs p row es tr a).toInt ≤ (fs (fval p row e)).toInt ∧
        (fs (fval p row e)).toInt ≤ 1) ∧
    (1 < (scalFold fs p row es tr a).toInt →
      a.toInt ≤ (scalFold fs p row es tr a).toInt ∧
      ∀ e ∈ es, e.scalLoc = tr → (fs (fval p row e)).toInt ≤ (scalFold fs p row es tr a).toInt) ∧
    (scalFold fs p row es tr a = a ∨ ∃ e ∈ es, e.scalLoc = tr ∧ scalFold fs p row es tr a = fs (fval p row e)) := by
  induction es with
  | nil =>
    intro a
    refine ⟨fun h => ⟨le_refl _, h, by simp⟩, fun _ => ⟨le_refl _, by simp⟩, Or.inl rfl⟩
  | cons e es ih =>
    intro a
    have hc : scalFold fs p row (e :: es) tr a =
        scalFold fs p row es tr (if e.scalLoc = tr then joinScal a (fs (fval p row e)) else a) := rfl
    rw [hc]
    by_cases he : e.scalLoc = tr
    · rw [if_pos he]
      obtain ⟨i1, i2, i3⟩ := ih (joinScal a (fs (fval p row e)))
      have hj := joinScal_int a (fs (fval p row e))
      generalize hS : scalFold fs p row es tr (joinScal a (fs (fval p row e))) = S at *
      refine ⟨fun h => ?_, fun h => ?_, ?_⟩
      · obtain ⟨j1, j2, j3⟩ := i1 h
        split at hj
        · omega
        · refine ⟨by omega, by omega, ?_⟩
          intro e' he' ht
          rcases List.mem_cons.mp he' with rfl | he'
          · constructor <;> omega
          · exact j3 e' he' ht
      · obtain ⟨j1, j3⟩ := i2 h
        have hj' : a.toInt ≤ S.toInt ∧ (fs (fval p row e)).toInt ≤ S.toInt := by
          split at hj
          · omega
          · omega
        refine ⟨hj'.1, ?_⟩
        intro e' he' ht
        rcases List.mem_cons.mp he' with rfl | he'
        · exact hj'.2
        · exact j3 e' he' ht
      · rcases i3 with h | ⟨e', h1, h2, h3⟩
        · have : joinScal a (fs (fval p row e)) = a ∨ joinScal a (fs (fval p row e)) = fs (fval p row e) := by
            unfold joinScal; split <;> split <;> simp
          rcases this with h' | h'
          · exact Or.inl (h.trans h')
          · exact Or.inr ⟨e, List.mem_cons_self, he, h.trans h'⟩
        · exact Or.inr ⟨e', List.mem_cons_of_mem _ h1, h2, h3⟩
    · rw [if_neg he]
      obtain ⟨i1, i2, i3⟩ := ih a
      refine ⟨fun h => ?_, fun h => ?_, ?_⟩
      · obtain ⟨j1, j2, j3⟩ := i1 h
        refine ⟨j1, j2, ?_⟩
        intro e' he' ht
        rcases List.mem_cons.mp he' with rfl | he'
        · exact absurd ht he
        · exact j3 e' he' ht
      · obtain ⟨j1, j3⟩ := i2 h
        refine ⟨j1, ?_⟩
        intro e' he' ht
        rcases List.mem_cons.mp he' with rfl | he'
        · exact absurd ht he
        · exact j3 e' he' ht
      · rcases i3 with h | ⟨e', h1, h2, h3⟩
        · exact Or.inl h
        · exact Or.inr ⟨e', List.mem_cons_of_mem _ h1, h2, h3⟩

/-- Reading coordinates as they are. -/
def asIs : Conv ℚ ℚ := ⟨id, fun _ => 0, fun _ => 0, fun _ => 0, id, fun _ => 0, fun _ => 0, fun _ => 0, 0⟩

/-- Every scalar divides any value up to 2^47 within `long`. -/
theorem encode_total (v : ℚ) (h : |v| ≤ 2 ^ 46) (s : BitVec 16) : ∃ n, encode v s = .ok n := by
  have hu := unit_bounds s
  have hp := unit_pos s
  have h1 := lround_err (rnd (v / parseScalar s))
  have h2 := div_err v s
  have h3 := abs_sub_le ((lround (rnd (v / parseScalar s)) : ℤ) : ℚ) (rnd (v / parseScalar s)) (v / unit s)
  have h4 : |v / unit s| ≤ 2 ^ 61 := by
    rw [abs_div, abs_of_pos hp, div_le_iff₀ hp]
    nlinarith [hu.1]
  unfold encode
  simp only
  generalize lround (rnd (v / parseScalar s)) = L at *
  have h5 := abs_sub_abs_le_abs_sub (L : ℚ) (v / unit s)
  have : (1 : ℚ) / 2 ^ 100 ≤ 1 := by norm_num
  have h6 : |(L : ℚ)| < 2 ^ 63 := by linarith
  have h7 : |L| < 2 ^ 63 := by
    have : ((|L| : ℤ) : ℚ) < ((2 ^ 63 : ℤ) : ℚ) := by rw [Int.cast_abs]; push_cast; exact h6
    exact_mod_cast this
  rw [abs_lt] at h7
  rw [if_pos ⟨by omega, h7.2⟩]
  exact ⟨_, rfl⟩

theorem find_total (v : ℚ) (h : |v| ≤ 2 ^ 46) : ∃ s, findScalar v = .ok s := by
  have ht := trunc_bounds (v := v) (B := 2 ^ 46) (by push_cast; exact h)
  rw [abs_le] at ht
  unfold findScalar
  simp only
  rw [if_pos ⟨by omega, by omega⟩]
  split <;> exact ⟨_, rfl⟩

/-- **C15** (part): writing the coordinates of any number of traces and reading
them back.  For every coordinate `m` of every trace, with `S` the scalar in the
header field its group shares: `S` is 1 or the scalar of a member; if `S ≤ 1` it
is the finest of the group, otherwise the coarsest; if the coordinate in units of
`S` fits 32 bits it is read back to within half a unit (plus the rounding of two
double operations); and if it is a multiple of the unit the header integer is
exactly that multiple.  Missing from the full statement: that the coordinate fits
with the shared scalar (`C15_overflow_refuted`). -/
theorem C15_shared_partial (p q : Param ℚ) (b : Arr Endian.Byte)
    (sz stride skip skip' : Nat) (hreach : Reachable p.rule) (hp : WF p) (hq : WF q)
    (hqr : q.rule = p.rule) (hl : HdrLayout p.rule) (hfull : p.rule.fullextent = true)
    (hsz : sz + skip ≤ p.sz) (hsz' : sz + skip' ≤ q.sz) (hb : (240 + stride) * sz ≤ b.len)
    (hb' : b.len ≤ 2 ^ 64) (hv : ∀ x, x < p.f.len → |p.f.val x| ≤ 2 ^ 46) :
    ∃ b' q', insertParam dbl sz p b stride skip = .ok (b', p.rule) ∧
      extractParam dbl sz b' 0 q stride skip' = .ok q' ∧
      ∀ t m loc scal, t < sz → abs p.rule m = some (.float, loc, scal) →
        ∃ S n v r, val16 b' ((240 + stride) * t + (scal - 1)) = S ∧
          val32 b' ((240 + stride) * t + (loc - 1)) = n ∧
          getPrm asIs (t + skip) m p = .ok v ∧ getPrm asIs (t + skip') m q' = .ok r ∧
          encode v S = .ok n ∧ r = decode S n ∧
          (S = 1#16 ∨ ∃ m' loc' v', abs p.rule m' = some (.float, loc', scal) ∧
            getPrm asIs (t + skip) m' p = .ok v' ∧ findScalar v' = .ok S) ∧
          (∀ m' loc' v' s', abs p.rule m' = some (.float, loc', scal) →
            getPrm asIs (t + skip) m' p = .ok v' → findScalar v' = .ok s' →
            if S.toInt ≤ 1 then S.toInt ≤ s'.toInt ∧ s'.toInt ≤ 1 else s'.toInt ≤ S.toInt) ∧
          (|v / unit S| ≤ 2 ^ 31 - 1 → |r - v| ≤ unit S / 2 + (|v| + unit S) / 2 ^ 49) ∧
          (∀ k M : ℤ, v = rnd (k / 10000) → InI32 M → unit S * M = k / 10000 → n.toInt = M) := by
  have hst := reach_start hreach hfull
  obtain ⟨b', e1, e2, e3, -, -⟩ := insertParam_spec dbl (fun v => okOr 1#16 (findScalar v))
    (fun v s => okOr 0#32 (encode v s)) p hp hl stride skip sz
    (fun x hx => by obtain ⟨s, h⟩ := find_total _ (hv x hx); show findScalar _ = _; rw [h]; rfl)
    (fun x hx s => by obtain ⟨n, h⟩ := encode_total _ (hv x hx) s; show encode _ _ = _; rw [h]; rfl)
    hfull hst b hsz hb hb'
  obtain ⟨q', f1, f2, f3, f4, -, -, -, -⟩ := extractParam_spec dbl b' 0 sz stride skip' q hq
    (by rw [hqr]; exact hl) (by rw [hqr]; exact hfull) (by rw [hqr]; exact hst) hsz' (by omega) (by omega)
  have hwf := f2.wf hq f3
  refine ⟨b', q', e1, f1, ?_⟩
  intro t m loc scal ht hm
  obtain ⟨e, he, hev⟩ := entry_of_abs hm
  have hk : e.kind = .float := congrArg (·.1) hev
  have hloc : e.loc = loc := congrArg (·.2.1) hev
  have hscal : e.scalLoc = scal := congrArg (·.2.2) hev
  subst hloc hscal
  have g := (e3 t ht m e he).2.2 hk
  have d := (f4 t ht m e (by rw [hqr]; exact he)).2.2 hk
  rw [Nat.zero_add, g.1, g.2] at d
  generalize hS : scalarOf (fun v => okOr 1#16 (findScalar v)) p (t + skip) e.scalLoc = S at *
  have val : ∀ m' e', (m', some e') ∈ p.rule.map → e'.kind = .float →
      getPrm asIs (t + skip) m' p = .ok (fval p (t + skip) e') ∧ |fval p (t + skip) e'| ≤ 2 ^ 46 := by
    intro m' e' hm' hk'
    have hlt := num_lt hp.inv hm'
    rw [hk'] at hlt
    constructor
    · rw [getPrm_item asIs p hp hm' (by omega)]
      simp only [item, hk', ofItem, asIs, fval, id]
      rw [Nat.mul_comm]
    · refine hv _ ?_
      rw [hp.f, Nat.mul_comm (t + skip)]
      exact idx_lt hlt (by omega)
  obtain ⟨v1, v2⟩ := val m e he hk
  have hfold := fold_spec (fun v => okOr 1#16 (findScalar v)) p (t + skip) e.scalLoc (floatsOf p.rule.map) 1#16
  have hS' : scalFold (fun v => okOr 1#16 (findScalar v)) p (t + skip) (floatsOf p.rule.map) e.scalLoc 1#16 = S := hS
  rw [hS'] at hfold
  obtain ⟨a1, a2, a3⟩ := hfold
  refine ⟨S, _, fval p (t + skip) e, decode S (okOr 0#32 (encode (fval p (t + skip) e) S)), g.1, g.2, v1, ?_, ?_, rfl, ?_, ?_, ?_, ?_⟩
  · rw [getPrm_item asIs q' hwf (by rw [f2.rule, hqr]; exact he) (by rw [f2.sz]; omega)]
    simp only [item, hk, ofItem, asIs, id]
    rw [Nat.mul_comm, d]
    rfl
  · obtain ⟨n, hn⟩ := encode_total _ v2 S
    show _ = Res.ok (okOr 0#32 (encode (fval p (t + skip) e) S))
    rw [hn]; rfl
  · rcases a3 with h | ⟨e', h1, h2, h3⟩
    · exact Or.inl h
    · obtain ⟨m', hm', hk'⟩ := mem_floatsOf.mp h1
      obtain ⟨w1, w2⟩ := val m' e' hm' hk'
      obtain ⟨s', hs'⟩ := find_total _ w2
      refine Or.inr ⟨m', e'.loc, _, ?_, w1, ?_⟩
      · unfold Rules.abs
        rw [find_of_mem hp.inv.keys hm']
        simp [entryVal, hk', h2]
      · rw [h3, hs']; rfl
  · intro m' loc' v' s' hm' hv' hs'
    obtain ⟨e', he', hev'⟩ := entry_of_abs hm'
    have hk' : e'.kind = .float := congrArg (·.1) hev'
    have hscal' : e'.scalLoc = e.scalLoc := congrArg (·.2.2) hev'
    obtain ⟨w1, w2⟩ := val m' e' he' hk'
    rw [w1] at hv'
    cases hv'
    have hmem : e' ∈ floatsOf p.rule.map := mem_floatsOf.mpr ⟨m', he', hk'⟩
    split
    · rename_i hle
      have := (a1 hle).2.2 e' hmem hscal'
      rw [hs'] at this
      exact this
    · rename_i hle
      have := (a2 (by omega)).2 e' hmem hscal'
      rw [hs'] at this
      exact this
  · intro hfit
    obtain ⟨n, n1, n2⟩ := encode_err hfit
    rw [n1]
    show |decode S n - _| ≤ _
    have hn : InI32 n.toInt := by
      have a := BitVec.le_toInt n
      have b := BitVec.toInt_lt (x := n)
      norm_num at a b
      exact ⟨by omega, by omega⟩
    have h3 : |decode S n - unit S * n.toInt| ≤ |unit S * n.toInt| / 2 ^ 51 := mul_err n.toInt S hn
    generalize fval p (t + skip) e = v at *
    have h4 := abs_sub_le (decode S n) (unit S * n.toInt) v
    have h5 := abs_sub_abs_le_abs_sub (unit S * (n.toInt : ℚ)) v
    have hup := unit_pos S
    have h0 := abs_nonneg v
    have h6 : |unit S * (n.toInt : ℚ)| ≤ 2 * (|v| + unit S) := by
      have : (|v| + unit S) / 2 ^ 50 ≤ (|v| + unit S) / 2 := by
        apply div_le_div_of_nonneg_left (by linarith) (by norm_num) (by norm_num)
      linarith
    have h7 : |unit S * (n.toInt : ℚ)| / 2 ^ 51 ≤ (|v| + unit S) / 2 ^ 50 := by
      rw [div_le_div_iff₀ (by positivity) (by positivity)]
      have : (2 : ℚ) ^ 51 = 2 * 2 ^ 50 := by norm_num
      rw [this]
      nlinarith
    have h8 : (|v| + unit S) / 2 ^ 50 + (|v| + unit S) / 2 ^ 50 = (|v| + unit S) / 2 ^ 49 := by ring
    linarith
  · intro k M hvk hM hu
    have hkb : |k| < 2 ^ 60 := by
      have hub := unit_bounds S
      have hup := unit_pos S
      have hM' : |(M : ℚ)| ≤ 2 ^ 31 := by
        have : |M| ≤ 2 ^ 31 := by obtain ⟨a, b⟩ := hM; rw [abs_le]; omega
        have : ((|M| : ℤ) : ℚ) ≤ ((2 ^ 31 : ℤ) : ℚ) := by exact_mod_cast this
        rw [Int.cast_abs] at this
        push_cast at this
        exact this
      have h1 : |(k : ℚ)| < 2 ^ 60 := by
        have : (k : ℚ) = unit S * M * 10000 := by rw [hu]; field_simp
        rw [this, abs_mul, abs_mul, abs_of_pos hup, abs_of_pos (by norm_num : (0 : ℚ) < 10000)]
        nlinarith [abs_nonneg (M : ℚ), hub.2]
      have : ((|k| : ℤ) : ℚ) < ((2 ^ 60 : ℤ) : ℚ) := by rw [Int.cast_abs]; push_cast; exact h1
      exact_mod_cast this
    have hM' : |M| < 2 ^ 46 := by obtain ⟨a, b⟩ := hM; rw [abs_lt]; omega
    have hn := near_encode (near_rnd k hkb) hM' hu
    rw [← hvk] at hn
    unfold encode
    simp only [hn]
    rw [if_pos ⟨by have := hM.1; omega, by have := hM.2; omega⟩]
    exact ofInt32_toInt hM

/-- Two coordinates sharing the coordinate scalar: 0.1234 (source x) and 300000
(receiver x). -/
def pair (r : Rule) : Param ℚ :=
  { mk 0 r 1 with f := ⟨2, fun x => if x = 0 then rnd ((1234 : ℤ) / 10000) else 300000⟩ }

/-- **C15** refuted: the finest scalar of the group, -10000, is used although
300000 does not fit with it; the receiver x coordinate is read back as a negative
number. -/
theorem C15_overflow_refuted :
    ∃ r b' q', ctor [20, 22] true false false = .ok r ∧
      insertParam dbl 1 (pair r) (.fill 240 0#8) 0 0 = .ok (b', r) ∧
      extractParam dbl 1 b' 0 (mk 0 r 1) 0 0 = .ok q' ∧
      getPrm asIs 0 22 (pair r) = .ok 300000 ∧ ∃ x, getPrm asIs 0 22 q' = .ok x ∧ x < 0 := by
  have hr : ∃ r, ctor [20, 22] true false false = .ok r := ⟨_, rfl⟩
  obtain ⟨r, hr⟩ := hr
  have hreach : Reachable r := Reach.ctor hr trivial
  have hk : KnownOnly r := by
    have hm : ∀ p ∈ r.map, ∃ e, p.2 = some e ∧ (e.kind = .index ∨ known p.1 = some (entryVal e)) := by
      cases hr; decide +kernel
    intro m v hv
    obtain ⟨e, he, rfl⟩ := entry_of_abs hv
    obtain ⟨e', h1, h2⟩ := hm _ he
    cases h1
    exact h2
  have hl := C12_known_layout r hreach.inv hk
  have hfull : r.fullextent = true := by cases hr; rfl
  have hcnt : r.cnt .float = 2 := by cases hr; rfl
  have h20 : Rules.abs r 20 = some (.float, 73, 71) := by cases hr; rfl
  have h22 : Rules.abs r 22 = some (.float, 81, 71) := by cases hr; rfl
  have honly : ∀ m loc, Rules.abs r m = some (.float, loc, 71) → m = 20 ∨ m = 22 := by
    intro m loc h
    obtain ⟨e, he, hev⟩ := entry_of_abs h
    have hk : e.kind = .float := congrArg (·.1) hev
    have : ∀ p ∈ r.map, p.2.map (·.kind) = some .float → p.1 = 20 ∨ p.1 = 22 := by cases hr; decide
    exact this _ he (by simp [hk])
  have hwf := mk_wf (0 : ℚ) hreach.inv 1
  have hpair : WF (pair r) := ⟨hwf.inv, by show 2 = 1 * r.cnt .float; rw [hcnt], hwf.i, hwf.s, hwf.t, hwf.c⟩
  have g20 : getPrm asIs 0 20 (pair r) = .ok (rnd ((1234 : ℤ) / 10000)) := by cases hr; rfl
  have g22 : getPrm asIs 0 22 (pair r) = .ok 300000 := by cases hr; rfl
  have near := near_rnd 1234 (by norm_num)
  have hval : |rnd (((1234 : ℤ) : ℚ) / 10000)| ≤ 1 := by
    have h1 := near.1
    have := abs_sub_abs_le_abs_sub (rnd (((1234 : ℤ) : ℚ) / 10000)) (((1234 : ℤ) : ℚ) / 10000)
    rw [abs_of_pos (by norm_num : (0 : ℚ) < ((1234 : ℤ) : ℚ) / 10000)] at *
    push_cast at *
    refine le_trans (by linarith) (show (1234 : ℚ) / 10000 / 2 ^ 50 + 1234 / 10000 ≤ 1 by norm_num)
  obtain ⟨b', q', e1, e2, e3⟩ := C15_shared_partial (pair r) (mk 0 r 1) (.fill 240 0#8) 1 0 0 0 hreach hpair hwf
    rfl hl hfull (le_refl _) (le_refl _) (by simp [Arr.fill]) (by simp [Arr.fill]) (by
      intro x hx
      show |if x = 0 then rnd (((1234 : ℤ) : ℚ) / 10000) else 300000| ≤ 2 ^ 46
      split
      · refine le_trans hval (by norm_num)
      · norm_num)
  refine ⟨r, b', q', hr, e1, e2, g22, ?_⟩
  obtain ⟨S, n, v, x, s1, s2, s3, s4, s5, s6, s7, s8, -, -⟩ := e3 0 22 81 71 (by decide) h22
  refine ⟨x, s4, ?_⟩
  rw [show (0 + 0 : ℕ) = 0 from rfl, g22] at s3
  cases s3
  -- scalars of the two members
  have f20 : findScalar (rnd (((1234 : ℤ) : ℚ) / 10000)) = .ok (BitVec.ofInt 16 (-10000)) := by
    have hu : unit (BitVec.ofInt 16 (-10000)) * ((1234 : ℤ) : ℚ) = ((1234 : ℤ) : ℚ) / 10000 := by
      rw [unit_neg10000]; ring
    have ht := near_trunc near (by norm_num)
    have hg := near_digits near (by norm_num)
    have t := test_ok (D := 10000) near (by decide) hu (by norm_num) (by rw [unit_neg10000]; norm_num)
    unfold findScalar
    simp only [ht, hg]
    rw [if_pos (by decide), if_pos (by decide)]
    have e1 : Int.tmod (1234 - Int.tdiv 1234 10000 * 10000) 10 ≠ 0 := by decide
    have q1 : Int.tdiv (-10000) 1 = -10000 := by decide
    generalize Int.tdiv 1234 10000 = ip at *
    generalize rnd (((1234 : ℤ) : ℚ) / 10000) = v at *
    simp only [BitVec.reduceOfInt, Int.reduceNeg] at t
    simp [smallLoop, e1, q1, t]
  have n22 : Near 300000 3000000000 := by
    refine ⟨by norm_num, fun _ => by norm_num⟩
  have f22 : findScalar 300000 = .ok 1#16 := by
    have ht := near_trunc n22 (by norm_num)
    have hg := near_digits n22 (by norm_num)
    unfold findScalar
    simp only [ht, hg]
    decide
  have hS : S = BitVec.ofInt 16 (-10000) := by
    have h := s8 20 73 _ _ h20 g20 f20
    have hneg : (BitVec.ofInt 16 (-10000)).toInt = -10000 := by decide
    rw [hneg] at h
    rcases s7 with h1 | ⟨m', loc', v', a1, a2, a3⟩
    · rw [h1] at h
      exact absurd h (by decide)
    · rcases honly m' loc' a1 with rfl | rfl
      · rw [show (0 + 0 : ℕ) = 0 from rfl, g20] at a2
        cases a2
        rw [f20] at a3; cases a3; rfl
      · rw [show (0 + 0 : ℕ) = 0 from rfl, g22] at a2
        cases a2
        rw [f22] at a3; cases a3
        exact absurd h (by decide)
  subst hS
  have hu : unit (BitVec.ofInt 16 (-10000)) * ((3000000000 : ℤ) : ℚ) = ((3000000000 : ℤ) : ℚ) / 10000 := by
    rw [unit_neg10000]; ring
  have hn := near_encode n22 (M := 3000000000) (by norm_num) hu
  unfold encode at s5
  simp only [hn] at s5
  rw [if_pos (by decide)] at s5
  cases s5
  have hni : (BitVec.ofInt 32 3000000000).toInt = -1294967296 := by decide
  rw [s6]
  unfold decode
  rw [hni]
  have := mul_err (-1294967296) (BitVec.ofInt 16 (-10000)) (by decide)
  rw [unit_neg10000] at this
  rw [abs_le] at this
  have h2 := this.2
  generalize rnd (parseScalar (BitVec.ofInt 16 (-10000)) * ((-1294967296 : ℤ) : ℚ)) = y at *
  have h3 : |1 / 10000 * ((-1294967296 : ℤ) : ℚ)| = 1294967296 / 10000 := by norm_num [abs_div]
  rw [h3] at h2
  push_cast at h2
  have : (1294967296 : ℚ) / 10000 / 2 ^ 51 < 1 := by norm_num
  linarith

/-- The hypotheses of `C15_shared_partial` are met by that pair. -/
example : |(300000 : ℚ)| ≤ 2 ^ 46 ∧ |(300000 : ℚ) / unit 1#16| ≤ 2 ^ 31 - 1 := by
  rw [unit_one]; norm_num

/-! ## C53: reading and writing again -/

theorem parse_ge {D n : ℤ} {s : BitVec 16} (hs : s.toInt = -D) (hD : 0 < D) (E : ℤ) (hE : -1022 ≤ E)
    (h1 : (2 : ℚ) ^ E ≤ 1 / D) (h2 : (1 : ℚ) / D < 2 ^ (E + 1))
    (h3 : |(1 : ℚ) / D / 2 ^ (E - 52) - n| < 1 / 2) (h4 : (1 : ℚ) / D ≤ n * 2 ^ (E - 52)) :
    unit s ≤ parseScalar s := by
  have hD' : (0 : ℚ) < 1 / D := by
    have : (0 : ℚ) < D := by exact_mod_cast hD
    positivity
  have e : unit s = 1 / D := by
    unfold unit; rw [hs, if_neg (by omega), if_neg (by omega), neg_neg]
  have e' : parseScalar s = rnd (1 / D) := by
    unfold parseScalar; rw [hs, if_neg (by omega), if_neg (by omega), neg_neg]
  rw [e, e', rnd_eval n E hE (by rw [abs_of_pos hD']; exact h1) (by rw [abs_of_pos hD']; exact h2) h3]
  exact h4

/-- Scalars below one used by the code, with the factor they divide by. -/
theorem neg_scalar {s : BitVec 16} (h : Accepted s) (h1 : s.toInt ≤ 1) :
    ∃ d : ℤ, (d = 1 ∨ d = 10 ∨ d = 100 ∨ d = 1000 ∨ d = 10000) ∧ unit s = 1 / d ∧ unit s ≤ parseScalar s := by
  rcases h with rfl | rfl | rfl | rfl | rfl | rfl | rfl | rfl | rfl
  · refine ⟨1, by simp, by rw [unit_one]; norm_num, ?_⟩
    have : (1#16).toInt = 1 := by decide
    simp [unit, parseScalar, this]
  · exact absurd h1 (by decide)
  · exact absurd h1 (by decide)
  · exact absurd h1 (by decide)
  · exact absurd h1 (by decide)
  · exact ⟨10, by simp, by rw [unit_neg10]; norm_num, parse_ge (D := 10) (n := 7205759403792794) (by decide)
      (by norm_num) (-4) (by norm_num) (by norm_num) (by norm_num) (by norm_num [abs_lt]) (by norm_num)⟩
  · exact ⟨100, by simp, by rw [unit_neg100]; norm_num, parse_ge (D := 100) (n := 5764607523034235) (by decide)
      (by norm_num) (-7) (by norm_num) (by norm_num) (by norm_num) (by norm_num [abs_lt]) (by norm_num)⟩
  · exact ⟨1000, by simp, by rw [unit_neg1000]; norm_num, parse_ge (D := 1000) (n := 4611686018427388) (by decide)
      (by norm_num) (-10) (by norm_num) (by norm_num) (by norm_num) (by norm_num [abs_lt]) (by norm_num)⟩
  · exact ⟨10000, by simp, by rw [unit_neg10000]; norm_num, parse_ge (D := 10000) (n := 7378697629483821) (by decide)
      (by norm_num) (-14) (by norm_num) (by norm_num) (by norm_num) (by norm_num [abs_lt]) (by norm_num)⟩

theorem neg_isDouble {x : ℚ} (h : IsDouble x) : IsDouble (-x) := by
  obtain ⟨n, e, h1, h2, rfl⟩ := h
  exact ⟨-n, e, by rwa [abs_neg], h2, by push_cast; ring⟩

/-- What is read approximates the header's value. -/
theorem near_decode {s : BitVec 16} {n : BitVec 32} {d : ℤ}
    (hd : d = 1 ∨ d = 10 ∨ d = 100 ∨ d = 1000 ∨ d = 10000) (hu : unit s = 1 / d)
    (hge : unit s ≤ parseScalar s) {k : ℤ} (hk : k * d = n.toInt * 10000) : Near (decode s n) k := by
  have hn : InI32 n.toInt := by
    have a := BitVec.le_toInt n
    have b := BitVec.toInt_lt (x := n)
    norm_num at a b
    exact ⟨by omega, by omega⟩
  have hd0 : (d : ℚ) ≠ 0 := by rcases hd with rfl | rfl | rfl | rfl | rfl <;> norm_num
  have hv : unit s * n.toInt = k / 10000 := by
    have : (k : ℚ) * d = n.toInt * 10000 := by exact_mod_cast hk
    rw [hu]; field_simp; linarith
  have hm := mul_err n.toInt s hn
  have hp := unit_pos s
  have hq := parse_pos s
  unfold decode
  generalize hN : n.toInt = N at *
  refine ⟨?_, fun hdvd => ?_⟩
  · rw [← hv]
    refine le_trans hm ?_
    have : 0 ≤ |unit s * (N : ℚ)| := abs_nonneg _
    exact div_le_div_of_nonneg_left this (by norm_num) (by norm_num)
  · obtain ⟨j, rfl⟩ := hdvd
    have e : ((10000 * j : ℤ) : ℚ) / 10000 = j := by push_cast; field_simp
    rw [e] at hv ⊢
    have hj : |j| < 2 ^ 53 := by
      obtain ⟨a, b⟩ := hn
      rw [abs_lt]
      rcases hd with rfl | rfl | rfl | rfl | rfl <;> omega
    rcases le_total 0 N with h0 | h0
    · have hN0 : (0 : ℚ) ≤ N := by exact_mod_cast h0
      have h1 : (j : ℚ) ≤ parseScalar s * N := by rw [← hv]; exact mul_le_mul_of_nonneg_right hge hN0
      have h2 := rnd_ge (isDouble_int hj) h1
      have hj0 : (0 : ℚ) ≤ j := by rw [← hv]; positivity
      rw [abs_of_nonneg hj0, abs_of_nonneg (by linarith)]
      exact h2
    · have hN0 : (N : ℚ) ≤ 0 := by exact_mod_cast h0
      have h1 : parseScalar s * N ≤ (j : ℚ) := by rw [← hv]; exact mul_le_mul_of_nonpos_right hge hN0
      have h2 := rnd_le (isDouble_int hj) h1
      have hj0 : (j : ℚ) ≤ 0 := by rw [← hv]; exact mul_nonpos_of_nonneg_of_nonpos (le_of_lt hp) hN0
      rw [abs_of_nonpos hj0, abs_of_nonpos (by linarith)]
      linarith

theorem pos_scalar {s : BitVec 16} (h : Accepted s) (h1 : 1 < s.toInt) :
    ∃ j, 1 ≤ j ∧ j ≤ 4 ∧ s.toInt = 10 ^ j := by
  rcases h with rfl | rfl | rfl | rfl | rfl | rfl | rfl | rfl | rfl
  · exact absurd h1 (by decide)
  · exact ⟨1, by norm_num, by norm_num, by decide⟩
  · exact ⟨2, by norm_num, by norm_num, by decide⟩
  · exact ⟨3, by norm_num, by norm_num, by decide⟩
  · exact ⟨4, by norm_num, by norm_num, by decide⟩
  all_goals exact absurd h1 (by decide)

/-- **C53**: reading any coordinate whose header scalar is one of the accepted
powers of ten and writing it again stores exactly the same value (scalar times
integer), although the double in between may differ from it in the last places. -/
theorem C53_reread (s : BitVec 16) (n : BitVec 32) (h : Accepted s) :
    ∃ s' n', findScalar (decode s n) = .ok s' ∧ Accepted s' ∧ encode (decode s n) s' = .ok n' ∧
      unit s' * n'.toInt = unit s * n.toInt := by
  have hn : InI32 n.toInt := by
    have a := BitVec.le_toInt n
    have b := BitVec.toInt_lt (x := n)
    norm_num at a b
    exact ⟨by omega, by omega⟩
  -- finish from the scalar found
  have fin : ∀ (k N : ℤ) (s' : BitVec 16), Near (decode s n) k → (k : ℚ) / 10000 = unit s * n.toInt →
      findScalar (decode s n) = .ok s' → Accepted s' → unit s' * N = k / 10000 → InI32 N →
      ∃ s' n', findScalar (decode s n) = .ok s' ∧ Accepted s' ∧ encode (decode s n) s' = .ok n' ∧
      unit s' * n'.toInt = unit s * n.toInt := by
    intro k N s' hnear hk hf ha hu hN
    have hN' : |N| < 2 ^ 46 := by obtain ⟨a, b⟩ := hN; rw [abs_lt]; omega
    refine ⟨s', BitVec.ofInt 32 N, hf, ha, ?_, ?_⟩
    · unfold encode
      simp only [near_encode hnear hN' hu]
      rw [if_pos ⟨by have := hN.1; omega, by have := hN.2; omega⟩]
    · rw [ofInt32_toInt hN, hu, hk]
  by_cases h1 : s.toInt ≤ 1
  · obtain ⟨d, hd, hu, hge⟩ := neg_scalar h h1
    obtain ⟨k, hk⟩ : ∃ k : ℤ, k * d = n.toInt * 10000 := by
      rcases hd with rfl | rfl | rfl | rfl | rfl
      · exact ⟨n.toInt * 10000, by ring⟩
      · exact ⟨n.toInt * 1000, by ring⟩
      · exact ⟨n.toInt * 100, by ring⟩
      · exact ⟨n.toInt * 10, by ring⟩
      · exact ⟨n.toInt, by ring⟩
    have hnear := near_decode hd hu hge hk
    have hkq : (k : ℚ) / 10000 = unit s * n.toInt := by
      have hd0 : (d : ℚ) ≠ 0 := by rcases hd with rfl | rfl | rfl | rfl | rfl <;> norm_num
      have : (k : ℚ) * d = n.toInt * 10000 := by exact_mod_cast hk
      rw [hu]; field_simp; linarith
    obtain ⟨s', N, a1, a2, a3, a4, -⟩ := find_decimal hnear hd hn hk
    exact fin k N s' hnear hkq a2 a1 a3 a4
  · have h1 : 1 < s.toInt := by omega
    obtain ⟨j, hj1, hj4, hj⟩ := pos_scalar h h1
    have hu : unit s = ((10 ^ j : ℤ) : ℚ) := by
      unfold unit; rw [if_neg (by omega), if_pos (by omega), hj]
    have hps : parseScalar s = ((10 ^ j : ℤ) : ℚ) := by
      unfold parseScalar; rw [if_neg (by omega), if_pos (by omega), hj]
    have hpow : ∀ i ≤ 4, (10 : ℤ) ^ i = 1 ∧ i = 0 ∨ (10 : ℤ) ^ i = 10 ∧ i = 1 ∨ (10 : ℤ) ^ i = 100 ∧ i = 2 ∨
        (10 : ℤ) ^ i = 1000 ∧ i = 3 ∨ (10 : ℤ) ^ i = 10000 ∧ i = 4 := by
      intro i hi
      have : i = 0 ∨ i = 1 ∨ i = 2 ∨ i = 3 ∨ i = 4 := by omega
      rcases this with rfl | rfl | rfl | rfl | rfl <;> norm_num
    have hvb : |(10 : ℤ) ^ j * n.toInt| < 2 ^ 53 := by
      obtain ⟨a, b⟩ := hn
      rw [abs_lt]
      rcases hpow j hj4 with ⟨e, _⟩ | ⟨e, _⟩ | ⟨e, _⟩ | ⟨e, _⟩ | ⟨e, _⟩ <;> rw [e] <;> omega
    have hv : decode s n = ((10 ^ j * n.toInt : ℤ) : ℚ) := by
      unfold decode
      rw [hps, ← Int.cast_mul, rnd_int hvb]
    have hnear : Near (decode s n) (10 ^ j * n.toInt * 10000) := by
      have e : ((10 ^ j * n.toInt * 10000 : ℤ) : ℚ) / 10000 = ((10 ^ j * n.toInt : ℤ) : ℚ) := by
        rw [Int.cast_mul (10 ^ j * n.toInt) 10000, Int.cast_ofNat]
        field_simp
      unfold Near
      rw [hv, e]
      refine ⟨?_, fun _ => le_refl _⟩
      rw [sub_self, abs_zero]
      positivity
    have hkq : ((10 ^ j * n.toInt * 10000 : ℤ) : ℚ) / 10000 = unit s * n.toInt := by
      rw [hu]; push_cast; field_simp
    by_cases hI : InI32 (10 ^ j * n.toInt)
    · obtain ⟨s', N, a1, a2, a3, a4, -⟩ := find_decimal hnear (d := 1) (M := 10 ^ j * n.toInt) (by simp) hI (by ring)
      exact fin _ N s' hnear hkq a2 a1 a3 a4
    · have ht : trunc (decode s n) = 10 ^ j * n.toInt := by
        rw [hv]; unfold trunc
        split
        · exact Int.floor_intCast _
        · rw [← Int.cast_neg, Int.floor_intCast, neg_neg]
      obtain ⟨s', i, b1, b2, b3, b4, b5, b6⟩ := C14_large_partial (decode s n) (by rw [ht]; exact hI) (by
        rw [ht]
        have h1 := Int.mul_tdiv_add_tmod (10 ^ j * n.toInt) 10000
        have h2 := Int.tmod_lt_of_pos (10 ^ j * n.toInt) (by norm_num : (0 : ℤ) < 10000)
        have h3 := Int.lt_tmod_of_pos (10 ^ j * n.toInt) (by norm_num : (0 : ℤ) < 10000)
        obtain ⟨a, b⟩ := hn
        unfold InI32
        rcases hpow j hj4 with ⟨e, _⟩ | ⟨e, _⟩ | ⟨e, _⟩ | ⟨e, _⟩ | ⟨e, _⟩ <;> rw [e] at h1 h2 h3 ⊢ <;> omega)
      rw [ht] at b5 b6
      have hij : i ≤ j := by
        by_contra hc
        have hc : j < i := lt_of_not_ge hc
        refine b6 j hc ?_
        rw [Int.mul_tdiv_cancel_left _ (by positivity)]
        exact hn
      obtain ⟨l, rfl⟩ : ∃ l, j = i + l := ⟨j - i, by omega⟩
      have hN : (10 ^ (i + l) * n.toInt).tdiv (10 ^ i) = 10 ^ l * n.toInt := by
        rw [pow_add, mul_assoc, Int.mul_tdiv_cancel_left _ (by positivity)]
      rw [hN] at b5
      have hu' : unit s' = ((10 ^ i : ℤ) : ℚ) := by
        unfold unit
        have : 0 < s'.toInt := by rw [b4]; positivity
        rw [if_neg (by omega), if_pos this, b4]
      have ha : Accepted s' := by
        obtain ⟨s'', c1, c2⟩ := C14_power_partial (decode s n) (by
          rw [ht]
          have h1 := Int.mul_tdiv_add_tmod (10 ^ (i + l) * n.toInt) 10000
          have h2 := Int.tmod_lt_of_pos (10 ^ (i + l) * n.toInt) (by norm_num : (0 : ℤ) < 10000)
          have h3 := Int.lt_tmod_of_pos (10 ^ (i + l) * n.toInt) (by norm_num : (0 : ℤ) < 10000)
          obtain ⟨a, b⟩ := hn
          unfold InI32
          rcases hpow (i + l) hj4 with ⟨e, _⟩ | ⟨e, _⟩ | ⟨e, _⟩ | ⟨e, _⟩ | ⟨e, _⟩ <;> rw [e] at h1 h2 h3 ⊢ <;> omega)
        rw [b1] at c1; cases c1; exact c2
      refine fin _ (10 ^ l * n.toInt) s' hnear hkq b1 ha ?_ b5
      rw [hkq, hu', hu]
      push_cast
      ring

/-- 300 units of 1/100, 3 units of 10^3. -/
example : Accepted (BitVec.ofInt 16 (-100)) ∧ Accepted 1000#16 := by simp [Accepted]

end Verif.Scalar
